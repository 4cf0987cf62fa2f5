import Verif.Spec.Mixed
import Verif.Props.EndToEnd
import Verif.Props.Fails
import Verif.Props.Short

namespace Gosstrak

theorem idBit_append (id more : List Byte) (n : Nat) :
    idBit (id ++ more) n = if n < 8 * id.length then idBit id n else idBit more (n - 8 * id.length) := by
  unfold idBit
  by_cases h : n < 8 * id.length
  · rw [if_pos h, List.getElem?_append_left (by omega)]
  · rw [if_neg h, List.getElem?_append_right (by omega)]
    have e1 : n / 8 - id.length = (n - 8 * id.length) / 8 := by omega
    have e2 : n % 8 = (n - 8 * id.length) % 8 := by omega
    rw [e1, e2]

theorem bitsOf_append (id more : List Byte) : bitsOf (id ++ more) = bitsOf id ++ bitsOf more := by
  apply List.ext_getElem?
  intro n
  by_cases h : n < 8 * id.length
  · rw [List.getElem?_append_left (by rw [bitsOf_length]; exact h), bitsOf_getElem?, bitsOf_getElem?,
      if_pos h, if_pos (by rw [List.length_append]; omega), idBit_append, if_pos h]
  · rw [List.getElem?_append_right (by rw [bitsOf_length]; omega), bitsOf_length, bitsOf_getElem?,
      bitsOf_getElem?, idBit_append, if_neg h, List.length_append]
    by_cases h2 : n < 8 * (id.length + more.length)
    · rw [if_pos h2, if_pos (show n - 8 * id.length < 8 * more.length by omega)]
    · rw [if_neg h2, if_neg (show ¬ n - 8 * id.length < 8 * more.length by omega)]

theorem carries_prefix {k : Str} {id : List Byte} (hk : IsBitStr k) (hl : k.length ≤ 8 * id.length) :
    Carries k 0 id ↔ k <+: bitsOf id :=
  carries_iff_prefix (p := []) hk List.nil_prefix (by simpa using hl)

theorem map_some_pre {a b : Str} (h : a.map some <+: b.map some) : a <+: b := by
  induction a generalizing b with
  | nil => exact List.nil_prefix
  | cons c a ih =>
    cases b with
    | nil => simp at h
    | cons d b =>
      simp only [List.map_cons, List.cons_prefix_cons, Option.some.injEq] at h ⊢
      exact ⟨h.1, ih h.2⟩

/-- a tag that goes on has the same characters first -/
theorem symbols_append (id more : List Byte) : sixBitSymbols id <+: sixBitSymbols (id ++ more) := by
  unfold sixBitSymbols
  obtain ⟨r, hr⟩ : ∃ r, 8 * (id ++ more).length / 6 = 8 * id.length / 6 + r :=
    ⟨8 * (id ++ more).length / 6 - 8 * id.length / 6, by rw [List.length_append]; omega⟩
  rw [hr, List.range_add, List.map_append]
  have : (List.range (8 * id.length / 6)).map (fun i => sixBitChar (field (id ++ more) (6 * i) 6)) =
      (List.range (8 * id.length / 6)).map fun i => sixBitChar (field id (6 * i) 6) := by
    apply List.map_congr_left
    intro i hi
    rw [List.mem_range] at hi
    congr 1
    unfold field
    apply bitsVal_congr
    intro j hj
    rw [idBit_append, if_pos (by omega)]
  rw [this]
  exact List.prefix_append _ _

/-- bits carried whatever follows are a prefix -/
theorem carries_all {k : Str} {id : List Byte} (hk : IsBitStr k) :
    (∀ more, Carries k 0 (id ++ more)) ↔ k <+: bitsOf id := by
  constructor
  · intro h
    by_cases hl : k.length ≤ 8 * id.length
    · rw [← carries_prefix hk hl]
      simpa using h []
    · exfalso
      have hlt : 8 * id.length < k.length := by omega
      have e := List.getElem?_eq_getElem hlt
      have hx : k[8 * id.length] ≠ 'x' := by
        rcases hk _ (List.getElem_mem hlt) with h | h <;> rw [h] <;> decide
      have h0 := h [0#8] _ _ e hx
      have h1 := h [255#8] _ _ e hx
      rw [Nat.zero_add, idBit_append, if_neg (by omega), Nat.sub_self] at h0 h1
      have z0 : idBit [0#8] 0 = false := by decide
      have z1 : idBit [255#8] 0 = true := by decide
      rw [z0] at h0; rw [z1] at h1
      exact absurd (h0.mp (h1.mpr rfl)) (by decide)
  · intro h more
    have hl := h.length_le
    rw [bitsOf_length] at hl
    rw [carries_prefix hk (by rw [List.length_append]; omega), bitsOf_append]
    exact h.trans (List.prefix_append _ _)

theorem sixBits_carries (x : Binutil) (hx : x.Ok) (s : Str) (h : IsSixBitOrSpace s) (o : Nat)
    (id : List Byte) (hf : ∀ i c, s[i]? = some c → field id (o + 6 * i) 6 = c.toNat % 64) :
    Carries (x.sixBits s) o id := by
  induction s generalizing o with
  | nil =>
    intro i c hi
    rw [show x.sixBits [] = [] from rfl] at hi
    simp at hi
  | cons d s ih =>
    have hd := h d List.mem_cons_self
    have h6 := hx.sixBit d hd.1 hd.2
    rw [sixBits_cons, carries_append, carries_padded h6, h6.2.1]
    refine ⟨by simpa using hf 0 d rfl, ih (fun e he => h e (List.mem_cons_of_mem _ he)) _ fun i c hi => ?_⟩
    have := hf (i + 1) c (by simpa using hi)
    rw [← this]
    congr 1; omega

theorem sixBitChar_eq (v : Nat) (hv : v < 64) (c : Char) (h : 33 ≤ c.toNat ∧ c.toNat < 96) :
    sixBitChar v = some c ↔ v = c.toNat % 64 := by
  have key : ∀ n < 96, 33 ≤ n → ∀ v < 64, sixBitChar v = some (Char.ofNat n) ↔ v = n % 64 := by decide +kernel
  have := key c.toNat h.2 h.1 v hv
  rwa [Char.ofNat_toNat] at this

/-- the bits of a text start the tags whose text it starts -/
theorem sixBits_prefix (x : Binutil) (hx : x.Ok) (s : Str) (h : IsSixBit s) (id : List Byte) :
    x.sixBits s <+: bitsOf id ↔ s.map some <+: sixBitSymbols id := by
  obtain ⟨hb, hl⟩ := sixBits_bits x hx s h.orSpace
  have hget : ∀ i, (sixBitSymbols id)[i]? =
      if i < 8 * id.length / 6 then some (sixBitChar (field id (6 * i) 6)) else none := by
    intro i
    unfold sixBitSymbols
    rw [List.getElem?_map]
    by_cases hi : i < 8 * id.length / 6
    · rw [List.getElem?_range hi, if_pos hi]; rfl
    · rw [List.getElem?_eq_none (by simpa using hi), if_neg hi]; rfl
  constructor
  · intro hp
    have hle := hp.length_le
    rw [bitsOf_length, hl] at hle
    have hc := (carries_prefix hb (by omega)).mpr hp
    rw [List.prefix_iff_getElem?]
    intro i hi
    rw [List.length_map] at hi
    have e := List.getElem?_eq_getElem hi
    have := sixBits_fields x hx s h.orSpace 0 id hc i _ e
    rw [Nat.zero_add] at this
    rw [hget, if_pos (by omega), List.getElem_map]
    congr 1
    rw [sixBitChar_eq _ (field_lt id _ 6) _ (h _ (List.getElem_mem hi)), this]
  · intro hp
    have hle := hp.length_le
    rw [List.length_map] at hle
    have : (sixBitSymbols id).length = 8 * id.length / 6 := by simp [sixBitSymbols]
    rw [this] at hle
    rw [← carries_prefix hb (by omega)]
    refine sixBits_carries x hx s h.orSpace 0 id fun i c hi => ?_
    obtain ⟨hlt, hi'⟩ := List.getElem?_eq_some_iff.mp hi
    have h1 := (List.prefix_iff_getElem?.mp hp) i (by rw [List.length_map]; exact hlt)
    rw [hget, if_pos (by omega), List.getElem_map, hi'] at h1
    rw [Nat.zero_add, ← sixBitChar_eq _ (field_lt id _ 6) _ (h c (List.mem_of_getElem? hi))]
    exact Option.some.inj h1

theorem sixDigits_code {c : Str} (h : IsCode c) : IsCode (sixDigits c) := by
  unfold sixDigits
  intro d hd
  rcases List.mem_append.mp hd with hd | hd
  · rw [List.mem_replicate] at hd
    rw [hd.2]; left; decide
  · exact h d hd

theorem isoText_key (x : Binutil) {t : Str} {fields : List Str} {s : Str} (h : IsoText t fields s) :
    x.encoder t fields = some (x.sixBits s) ∧ IsSixBit s := by
  cases h with
  | container fields h1 h2 h3 =>
    refine ⟨?_, h3⟩
    change x.prefixFilterISO17363 fields = _
    match fields, h1, h2 with
    | [d], _, _ => simp [Binutil.prefixFilterISO17363]
    | [d, o], _, _ => simp [Binutil.prefixFilterISO17363, sixBits_append]
    | [d, o, e], _, _ => simp [Binutil.prefixFilterISO17363, sixBits_append]
  | item fields h1 h2 h3 =>
    refine ⟨?_, h3⟩
    change x.prefixFilterISO17365 fields = _
    match fields, h1, h2 with
    | [d], _, _ => simp [Binutil.prefixFilterISO17365]
    | [d, o], _, _ => simp [Binutil.prefixFilterISO17365, sixBits_append]
    | [d, o, e], _, _ => simp [Binutil.prefixFilterISO17365, sixBits_append]
    | [d, o, e, c], _, _ => simp [Binutil.prefixFilterISO17365, sixBits_append]
  | complete d o e c hd ho he hc h6 h4 =>
    obtain ⟨l1, l2, -⟩ := leftPad_sixDigits c h6
    have hcode : IsCode (d ++ o ++ sixDigits c) := (hd.append ho).append (sixDigits_code hc)
    have hten : (d ++ o ++ sixDigits c).length = 10 := by
      rw [List.length_append, List.length_append, l2]; omega
    obtain ⟨hcd, _, hlt⟩ := C44_check_digit _ hten hcode
    constructor
    · change x.prefixFilterISO17363 [d, o, e, c] = _
      unfold Binutil.prefixFilterISO17363
      dsimp only
      rw [if_neg (by omega), l1, hcd]
      dsimp only
      rw [if_pos rfl, intStr_digit _ hlt]
      simp only [sixBits_append, List.append_assoc]
    · refine IsSixBit.append (IsSixBit.append (IsSixBit.append (hd.append ho).sixBit he)
        (sixDigits_code hc).sixBit) ?_
      exact IsCode.sixBit (IsDigits.code fun c hc => by
        rw [List.mem_singleton.mp hc]; exact (digit_ofNat _ hlt).1)

theorem useless_key (x : Binutil) {t : Str} {fields : List Str} (h : Useless t fields) :
    x.encoder t fields = none := by
  cases h with
  | epc sc fields h => exact (C94_epc x sc fields).mpr (Or.inr h)
  | container fields h =>
    rw [← Option.not_isSome_iff_eq_none, Option.isSome_iff_exists, C94_container_pattern]
    rintro (h' | ⟨d, o, e, c, rfl, -⟩)
    · omega
    · simp at h
  | complete d o e c h => exact (C45_error_iff x d o e c).mpr h
  | item fields h =>
    rw [← Option.not_isSome_iff_eq_none, Option.isSome_iff_exists, C94_item_pattern]
    omega
  | unknown t fields h h3 h5 => exact C94_unknown x t fields h h3 h5

/-- the bits with which a pattern is stored -/
def keyOf (x : Binutil) (t : Str) (fields : List Str) : Str := (x.encoder t fields).getD []

theorem known_key (x : Binutil) (hx : x.Ok) {t : Str} {fields : List Str} (h : PatKnown t fields) :
    IsBitStr (keyOf x t fields) ∧
      ∀ id : List Byte, id ≠ [] → (keyOf x t fields <+: bitsOf id ↔ PatSelects t fields id) := by
  have hepc : ∀ sc : Scheme, t = sc.typeName → sc.Encodable fields → IsBitStr (keyOf x t fields) ∧
      ∀ id : List Byte, id ≠ [] →
        (keyOf x t fields <+: bitsOf id ↔ ∀ more, sc.Has (id ++ more) fields) := by
    rintro sc rfl he
    obtain ⟨k, e1, e2, -, -, e5⟩ := encoder_carries x hx sc fields he
    have ek : keyOf x sc.typeName fields = k := by unfold keyOf; rw [e1]; rfl
    rw [ek]
    refine ⟨e2, fun id hid => ?_⟩
    rw [← carries_all e2]
    have hpos := List.length_pos_iff.mpr hid
    exact forall_congr' fun more => e5 _ (by rw [List.length_append]; omega)
  have hiso : ∀ s, IsoText t fields s → IsBitStr (keyOf x t fields) ∧
      ∀ id : List Byte, (keyOf x t fields <+: bitsOf id ↔ s.map some <+: sixBitSymbols id) := by
    intro s hs
    obtain ⟨e1, e2⟩ := isoText_key x hs
    have ek : keyOf x t fields = x.sixBits s := by unfold keyOf; rw [e1]; rfl
    rw [ek]
    exact ⟨(sixBits_bits x hx s e2.orSpace).1, sixBits_prefix x hx s e2⟩
  have huse : Useless t fields → keyOf x t fields = [] := fun h => by
    unfold keyOf; rw [useless_key x h]; rfl
  have hbit : IsBitStr (keyOf x t fields) := by
    rcases h with ⟨sc, h1, h2⟩ | ⟨s, h⟩ | h
    · exact (hepc sc h1 h2).1
    · exact (hiso s h).1
    · rw [huse h]; exact fun c hc => by cases hc
  refine ⟨hbit, fun id hid => ⟨fun hp => ?_, ?_⟩⟩
  · rcases h with ⟨sc, h1, h2⟩ | ⟨s, h⟩ | h
    · exact Or.inl ⟨sc, h1, h2, ((hepc sc h1 h2).2 id hid).mp hp⟩
    · exact Or.inr (Or.inl ⟨s, h, ((hiso s h).2 id).mp hp⟩)
    · exact Or.inr (Or.inr h)
  · rintro (⟨sc, h1, h2, h3⟩ | ⟨s, h1, h2⟩ | h)
    · exact ((hepc sc h1 h2).2 id hid).mpr h3
    · exact ((hiso s h1).2 id).mpr h2
    · rw [huse h]; exact List.nil_prefix

/-- ending inside the bits is ending inside the pattern -/
theorem known_cut (x : Binutil) (hx : x.Ok) {t : Str} {fields : List Str} (h : PatKnown t fields)
    (id : List Byte) (hid : id ≠ []) : TagEndsInside id (keyOf x t fields) ↔ PatCut t fields id := by
  obtain ⟨hb, hs⟩ := known_key x hx h
  have hs' : ∀ more, keyOf x t fields <+: bitsOf (id ++ more) ↔ PatSelects t fields (id ++ more) :=
    fun more => hs _ (by simp [hid])
  constructor
  · rintro ⟨h1, h2⟩
    have h2 := h2.resolve_right hid
    refine ⟨fun hsel => h2 (h1.eq_of_length_le ((hs id hid).mpr hsel).length_le), ?_⟩
    obtain ⟨r, hr⟩ := h1
    have hrb : IsBitStr r := fun c hc => hb c (by rw [← hr]; exact List.mem_append.mpr (Or.inr hc))
    obtain ⟨more, -, m2, -⟩ := exists_id_from hrb 0
    refine ⟨more, (hs' more).mp ?_⟩
    rw [bitsOf_append, ← hr]
    exact (List.prefix_append_right_inj _).mpr m2
  · rintro ⟨h1, more, h2⟩
    have h1' : ¬ keyOf x t fields <+: bitsOf id := fun h => h1 ((hs id hid).mp h)
    have h2' := (hs' more).mpr h2
    rw [bitsOf_append] at h2'
    rcases List.prefix_or_prefix_of_prefix h2' (List.prefix_append (bitsOf id) (bitsOf more)) with h | h
    · exact absurd h h1'
    · exact ⟨h, Or.inl fun e => h1' (e ▸ List.prefix_rfl)⟩

theorem key_of_within (x : Binutil) (hx : x.Ok) {t t' : Str} {f f' : List Str} (h : PatKnown t f)
    (h' : PatKnown t' f') : PatWithin t f t' f' ↔ keyOf x t' f' <+: keyOf x t f := by
  obtain ⟨b, s⟩ := known_key x hx h
  obtain ⟨b', s'⟩ := known_key x hx h'
  constructor
  · intro hw
    -- take two tags that start with the bits of the first pattern and then differ
    have step : ∀ c, c = '0' ∨ c = '1' → ∃ id : List Byte, id ≠ [] ∧ keyOf x t f ++ [c] <+: bitsOf id := by
      intro c hc
      obtain ⟨id, h1, h2, -⟩ := exists_id_from (g := keyOf x t f ++ [c]) (by
        intro d hd
        rcases List.mem_append.mp hd with hd | hd
        · exact b d hd
        · rw [List.mem_singleton] at hd; rw [hd]; exact hc) 0
      exact ⟨id, h1, h2⟩
    obtain ⟨i0, a0, p0⟩ := step '0' (Or.inl rfl)
    obtain ⟨i1, a1, p1⟩ := step '1' (Or.inr rfl)
    have q0 := (s' i0 a0).mpr (hw i0 a0 ((s i0 a0).mp ((List.prefix_append _ _).trans p0)))
    have q1 := (s' i1 a1).mpr (hw i1 a1 ((s i1 a1).mp ((List.prefix_append _ _).trans p1)))
    by_cases hl : (keyOf x t' f').length ≤ (keyOf x t f).length
    · exact List.prefix_of_prefix_length_le q0 ((List.prefix_append _ _).trans p0) hl
    · exfalso
      have r0 := List.prefix_of_prefix_length_le p0 q0 (by rw [List.length_append, List.length_singleton]; omega)
      have r1 := List.prefix_of_prefix_length_le p1 q1 (by rw [List.length_append, List.length_singleton]; omega)
      have := (List.prefix_of_prefix_length_le r0 r1 (by simp)).eq_of_length (by simp)
      simp at this
  · intro hp id hid hsel
    exact (s' id hid).mp (hp.trans ((s id hid).mpr hsel))

theorem key_of_same (x : Binutil) (hx : x.Ok) {t t' : Str} {f f' : List Str} (h : PatKnown t f)
    (h' : PatKnown t' f') : PatSame t f t' f' ↔ keyOf x t f = keyOf x t' f' := by
  unfold PatSame
  rw [key_of_within x hx h h', key_of_within x hx h' h]
  constructor
  · rintro ⟨h1, h2⟩
    exact h2.eq_of_length_le h1.length_le
  · intro e; rw [e]; exact ⟨List.prefix_rfl, List.prefix_rfl⟩

theorem gives_known {records : List (List Str)} (hf : FileFine records) {u t : Str} {f : List Str}
    (h : FileGives records u t f) : PatKnown t f := by
  obtain ⟨-, r, hr, -, p, hp, hpre, hof⟩ := h
  exact (hf r hr).2 p hp hpre t f hof

/-- who subscribes with which bits, in terms of the file -/
theorem gives_subscribes (x : Binutil) {records : List (List Str)} {sub order : Subs} (hm : IsMap sub)
    (h : ∀ uri, mapGet sub uri = if "http".toList <+: uri ∧ recordPatterns records uri ≠ [] then
        some (recordPatterns records uri) else none) (hp : order.Perm sub) (uri k : Str) :
    Subscribes x.encoder order uri k ↔ ∃ t f, FileGives records uri t f ∧ keyOf x t f = k := by
  have hrec : ∀ pat, pat ∈ recordPatterns records uri ↔ ∃ r ∈ records, (r.head?).map toLower = some uri ∧
      pat ∈ r.tail ∧ "urn:epc:pat:".toList <+: toLower pat := by
    intro pat
    unfold recordPatterns
    rw [List.mem_flatMap]
    constructor
    · rintro ⟨r, hr, hp⟩
      split at hp
      · rename_i hu
        rw [List.mem_filter, decide_eq_true_iff] at hp
        exact ⟨r, hr, hu, hp⟩
      · cases hp
    · rintro ⟨r, hr, hu, hp⟩
      refine ⟨r, hr, ?_⟩
      rw [if_pos hu, List.mem_filter, decide_eq_true_iff]
      exact hp
  have hkey : ∀ t f, (x.encoder t f = some k ∨ (x.encoder t f = none ∧ k = [])) ↔ keyOf x t f = k := by
    intro t f
    unfold keyOf
    cases x.encoder t f <;> simp [eq_comm]
  constructor
  · rintro ⟨pats, h1, pat, h2, t, f, h3, h4⟩
    have h5 := mapGet_of_mem hm (hp.mem_iff.mp h1)
    rw [h] at h5
    split at h5
    · rename_i hc
      cases h5
      obtain ⟨r, hr, hu, hpr, hpre⟩ := (hrec pat).mp h2
      exact ⟨t, f, ⟨hc.1, r, hr, hu, pat, hpr, hpre, h3⟩, (hkey t f).mp h4⟩
    · cases h5
  · rintro ⟨t, f, ⟨hh, r, hr, hu, pat, hpr, hpre, h3⟩, h4⟩
    have h2 := (hrec pat).mpr ⟨r, hr, hu, hpr, hpre⟩
    refine ⟨_, hp.mem_iff.mpr (mapGet_mem (m := sub) (q := uri)
      (by rw [h, if_pos ⟨hh, List.ne_nil_of_mem h2⟩])), pat, h2, t, f, h3, (hkey t f).mpr h4⟩

end Gosstrak
