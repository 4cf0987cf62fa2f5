import Verif.Spec.Random
import Verif.Props.Iso

/-! C86: fields that are left out. -/
namespace Gosstrak

theorem bounded_padded (n m : Nat) (hm : 0 < m) :
    ∃ v, v < m ∧ BinPadded n v ((leftPad n (binStr (min (m - 1) (2 ^ n - 1)))).take n) := by
  by_cases hn : n = 0
  · subst hn
    exact ⟨0, hm, fun c hc => by simp at hc, by simp, by simp [binVal]⟩
  · have hpos : 0 < 2 ^ n := Nat.pow_pos (by omega)
    have := leftPad_padded n _ _ (binStr_numeral (min (m - 1) (2 ^ n - 1))) (by omega) (by omega)
    rw [List.take_of_length_le (by rw [this.2.1]; exact Nat.le_refl _)]
    exact ⟨_, by omega, this⟩

/-- The assumptions on the generator can be met. -/
theorem boundedBinutil_ok : boundedBinutil.Ok ∧ boundedBinutil.Below := by
  refine ⟨⟨fun s h1 h2 _ => binStr_numeral _, fun i n m => ?_,
    fun c _ _ => leftPad_padded 6 _ _ (binStr_numeral _) (by omega) (by omega)⟩, fun i n m hm => ?_⟩
  · rcases Nat.eq_zero_or_pos m with rfl | hm
    · obtain ⟨v, _, h1, h2, _⟩ := bounded_padded n 1 (by omega)
      exact ⟨h1, h2⟩
    · obtain ⟨v, _, h1, h2, _⟩ := bounded_padded n m hm
      exact ⟨h1, h2⟩
  · obtain ⟨v, h0, h1, h2, h3⟩ := bounded_padded n m hm
    show binVal ((leftPad n (binStr (min (m - 1) (2 ^ n - 1)))).take n) < m
    rw [h3]
    exact h0

theorem binPadded_unique (w n : Nat) (s t : Str) (hs : BinPadded w n s) (ht : BinPadded w n t) : s = t := by
  induction w generalizing n s t with
  | zero => rw [List.eq_nil_of_length_eq_zero hs.2.1, List.eq_nil_of_length_eq_zero ht.2.1]
  | succ w ih =>
    obtain ⟨s1, s2, s3⟩ := hs
    obtain ⟨t1, t2, t3⟩ := ht
    match s, t, s1, s2, s3, t1, t2, t3 with
    | c :: s, e :: t, s1, s2, s3, t1, t2, t3 =>
      have hs := binVal_append [c] s
      have ht := binVal_append [e] t
      have ls : s.length = w := by simpa using s2
      have lt : t.length = w := by simpa using t2
      have bs := binVal_lt s
      have bt := binVal_lt t
      rw [List.singleton_append, s3, ls] at hs
      rw [List.singleton_append, t3, lt] at ht
      rw [ls] at bs
      rw [lt] at bt
      have v0 : binVal ['0'] = 0 := rfl
      have v1 : binVal ['1'] = 1 := rfl
      have hce : c = e := by
        rcases s1 c List.mem_cons_self with rfl | rfl <;> rcases t1 e List.mem_cons_self with rfl | rfl
        · rfl
        · rw [v0] at hs; rw [v1] at ht; omega
        · rw [v1] at hs; rw [v0] at ht; omega
        · rfl
      subst hce
      have := ih (binVal s) s t ⟨fun x hx => s1 x (List.mem_cons_of_mem _ hx), ls, rfl⟩
        ⟨fun x hx => t1 x (List.mem_cons_of_mem _ hx), lt, by omega⟩
      rw [this]

/-- the text with `d` digits of a number -/
theorem padded_exists (d n : Nat) (hd : 0 < d) (h : n < 10 ^ d) : ∃ s, Padded d n s := by
  obtain ⟨s, hs, _⟩ := (padZero_spec d n hd).1 h
  exact ⟨s, hs⟩

/-- a left out filter value is one of 0 to 6 -/
theorem filter_filled (x : Binutil) (hx : x.Ok) (hb : x.Below) :
    ∃ fv, IsFilterValue fv ∧ decVal fv < 7 ∧ x.getFilter [] = x.getFilter fv := by
  have h1 := hx.randomBits 0 3 7
  have h2 := hb 0 3 7 (by omega)
  have hn := decStr_numeral (binVal (x.randomBits 0 3 7))
  have hv : IsFilterValue (decStr (binVal (x.randomBits 0 3 7))) :=
    ⟨hn.1, hn.2.1, by rw [hn.2.2.1]; omega⟩
  refine ⟨_, hv, by rw [hn.2.2.1]; exact h2, ?_⟩
  have hp := getFilter_padded x _ hv
  rw [hn.2.2.1] at hp
  exact binPadded_unique _ _ _ _ ⟨h1.1, h1.2, rfl⟩ hp

/-- a left out serial is a number of 38 bits -/
theorem serial_filled (x : Binutil) (hx : x.Ok) :
    ∃ ser, Numeral (decVal ser) ser ∧ decVal ser < 2 ^ 38 ∧ x.getSerial [] = x.getSerial ser := by
  have h1 := hx.randomBits 2 38 (2 ^ 38)
  have hn := decStr_numeral (binVal (x.randomBits 2 38 (2 ^ 38)))
  have hlt := binVal_lt (x.randomBits 2 38 (2 ^ 38))
  rw [h1.2] at hlt
  refine ⟨decStr _, by rw [hn.2.2.1]; exact hn, by rw [hn.2.2.1]; exact hlt, ?_⟩
  have hp := getSerial_padded x hx (decStr (binVal (x.randomBits 2 38 (2 ^ 38))))
    ⟨hn.1, hn.2.1, by rw [hn.2.2.1]; exact hlt⟩
  rw [hn.2.2.1] at hp
  exact binPadded_unique _ _ _ _ ⟨h1.1, h1.2, rfl⟩ hp

/-- a left out second field is a number with the digits there are -/
theorem ref_filled (x : Binutil) (hx : x.Ok) (hb : x.Below) (sc : Scheme) (cp : Str)
    (hcp : IsCompanyPrefix cp) (hg : sc = .grai → cp.length < 12) :
    ∃ ref, sc.Canonical cp ref ∧ decVal ref < 10 ^ sc.refDigits cp ∧
      x.getRef [] (rowFor sc.table cp.length) = x.getRef ref (rowFor sc.table cp.length) := by
  have hrow := rowFor_spec sc.isTable cp hcp
  have hd : sc.digits (partitionFor cp) = sc.refDigits cp := by cases sc <;> rfl
  generalize hw : sc.width - companyBits (partitionFor cp) = w at hrow
  have he : x.getRef [] (rowFor sc.table cp.length) = x.randomBits 1 w (10 ^ sc.refDigits cp) := by
    rw [hrow, ← hd]; rfl
  have h1 := hx.randomBits 1 w (10 ^ sc.refDigits cp)
  have h2 := hb 1 w (10 ^ sc.refDigits cp) (Nat.pow_pos (by omega))
  have hlt := binVal_lt (x.randomBits 1 w (10 ^ sc.refDigits cp))
  rw [h1.2] at hlt
  generalize hv : binVal (x.randomBits 1 w (10 ^ sc.refDigits cp)) = v at h2 hlt
  have key : ∃ ref, sc.Canonical cp ref ∧ decVal ref = v := by
    have hp : sc = .grai → 0 < partitionFor cp := by
      intro h; have := hg h; unfold partitionFor; omega
    cases sc with
    | sgtin =>
      obtain ⟨s, hs⟩ := padded_exists (partitionFor cp + 1) v (by omega) h2
      exact ⟨s, ⟨hs.1, hs.2.1⟩, hs.2.2⟩
    | sscc =>
      obtain ⟨s, hs⟩ := padded_exists (partitionFor cp + 5) v (by omega) h2
      exact ⟨s, ⟨hs.1, hs.2.1⟩, hs.2.2⟩
    | grai =>
      obtain ⟨s, hs⟩ := padded_exists (partitionFor cp) v (hp rfl) h2
      exact ⟨s, ⟨hs.1, hs.2.1, hp rfl⟩, hs.2.2⟩
    | giai =>
      have hn := decStr_numeral v
      refine ⟨decStr v, ⟨by rw [hn.2.2.1]; exact hn, ?_⟩, hn.2.2.1⟩
      rw [hn.2.2.1]
      have : 82 - companyBits (partitionFor cp) = w := hw
      rw [this]; exact hlt
  obtain ⟨ref, k1, k2⟩ := key
  refine ⟨ref, k1, by rw [k2]; exact h2, ?_⟩
  have hp := (pieces_padded x hx sc cp hcp).2.2 ref (fits_of_canonical sc cp ref hcp k1)
  rw [k2, hw] at hp
  rw [he]
  exact binPadded_unique _ _ _ _ ⟨h1.1, h1.2, hv⟩ hp

/-- A call of the tag makers and of the encoder in which filter value, second field or serial are left
    out is a call in which they are given, with well-formed values. The values that were given stay. -/
theorem C86_filled (x : Binutil) (hx : x.Ok) (hb : x.Below) (sc : Scheme) (fv cp ref ser : Str)
    (hfv : fv = [] ∨ IsFilterValue fv) (hcp : IsCompanyPrefix cp) (hg : sc = .grai → cp.length < 12)
    (href : ref = [] ∨ sc.Canonical cp ref)
    (hser : sc.hasSerial → ser = [] ∨ Numeral (decVal ser) ser ∧ decVal ser < 2 ^ 38) :
    ∃ fv' ref' ser', sc.WellFormed (sc.allFields fv' cp ref' ser') ∧
      (fv ≠ [] → fv' = fv) ∧ (ref ≠ [] → ref' = ref) ∧ (ser ≠ [] → ser' = ser) ∧
      (fv = [] → decVal fv' < 7) ∧ (ref = [] → decVal ref' < 10 ^ sc.refDigits cp) ∧
      sc.make x fv cp ref ser = sc.make x fv' cp ref' ser' ∧
      x.encoder sc.typeName [fv] = x.encoder sc.typeName [fv'] ∧
      x.encoder sc.typeName [fv, cp] = x.encoder sc.typeName [fv', cp] ∧
      x.encoder sc.typeName [fv, cp, ref] = x.encoder sc.typeName [fv', cp, ref'] ∧
      x.encoder sc.typeName [fv, cp, ref, ser] = x.encoder sc.typeName [fv', cp, ref', ser'] := by
  have f1 : ∃ fv', IsFilterValue fv' ∧ (fv ≠ [] → fv' = fv) ∧ (fv = [] → decVal fv' < 7) ∧
      x.getFilter fv = x.getFilter fv' := by
    rcases hfv with rfl | h
    · obtain ⟨f, h1, h2, h3⟩ := filter_filled x hx hb
      exact ⟨f, h1, fun h => absurd rfl h, fun _ => h2, h3⟩
    · exact ⟨fv, h, fun _ => rfl, fun e => absurd e h.2.1, rfl⟩
  have f2 : ∃ ref', sc.Canonical cp ref' ∧ (ref ≠ [] → ref' = ref) ∧
      (ref = [] → decVal ref' < 10 ^ sc.refDigits cp) ∧
      x.getRef ref (rowFor sc.table cp.length) = x.getRef ref' (rowFor sc.table cp.length) := by
    rcases href with rfl | h
    · obtain ⟨f, h1, h2, h3⟩ := ref_filled x hx hb sc cp hcp hg
      exact ⟨f, h1, fun h => absurd rfl h, fun _ => h2, h3⟩
    · exact ⟨ref, h, fun _ => rfl, fun e => absurd e (fits_of_canonical sc cp ref hcp h).2.1, rfl⟩
  have f3 : ∃ ser', (sc.hasSerial → Numeral (decVal ser') ser' ∧ decVal ser' < 2 ^ 38) ∧
      (ser ≠ [] → ser' = ser) ∧ x.getSerial ser = x.getSerial ser' := by
    by_cases hs : sc.hasSerial
    · rcases hser hs with rfl | h
      · obtain ⟨f, h1, h2, h3⟩ := serial_filled x hx
        exact ⟨f, fun _ => ⟨h1, h2⟩, fun h => absurd rfl h, h3⟩
      · exact ⟨ser, fun _ => h, fun _ => rfl, rfl⟩
    · exact ⟨ser, fun h => absurd h hs, fun _ => rfl, rfl⟩
  obtain ⟨fv', a1, a2, a3, a4⟩ := f1
  obtain ⟨ref', b1, b2, b3, b4⟩ := f2
  obtain ⟨ser', c1, c2, c3⟩ := f3
  have e := encoder_pieces x sc fv cp ref ser
  have e' := encoder_pieces x sc fv' cp ref' ser'
  refine ⟨fv', ref', ser', ?_, a2, b2, c2, a3, b3, ?_, ?_, ?_, ?_, ?_⟩
  · unfold Scheme.allFields
    by_cases hs : sc.hasSerial
    · rw [if_pos hs]; exact ⟨a1, hcp, b1, hs, c1 hs⟩
    · rw [if_neg hs]; exact ⟨a1, hcp, b1⟩
  · have : sc.tail x ser = sc.tail x ser' := by
      cases sc
      · exact c3
      · rfl
      · exact c3
      · rfl
    rw [make_eq, make_eq, a4, b4, this]
  · rw [e.1, e'.1, a4]
  · rw [e.2.1, e'.2.1, a4]
  · rw [e.2.2.1, e'.2.2.1, a4, b4]
  · by_cases hs : sc.hasSerial
    · rw [e.2.2.2 hs, e'.2.2.2 hs, a4, b4, c3]
    · rw [encoder_scheme, encoder_scheme]
      cases sc <;> first | exact absurd trivial hs | rfl

/-- So a tag made with fields left out translates to an identity: that of well-formed fields of which
    those that were given are as given. -/
theorem C86_urn (x : Binutil) (hx : x.Ok) (hb : x.Below) (sc : Scheme) (fv cp ref ser : Str)
    (hfv : fv = [] ∨ IsFilterValue fv) (hcp : IsCompanyPrefix cp) (hg : sc = .grai → cp.length < 12)
    (href : ref = [] ∨ sc.Canonical cp ref)
    (hser : sc.hasSerial → ser = [] ∨ Numeral (decVal ser) ser ∧ decVal ser < 2 ^ 38)
    (p0 p1 : Byte) (hp : p0.toNat % 2 = 0) :
    ∃ fv' ref' ser' id, (fv ≠ [] → fv' = fv) ∧ (ref ≠ [] → ref' = ref) ∧ (ser ≠ [] → ser' = ser) ∧
      sc.WellFormed (sc.allFields fv' cp ref' ser') ∧
      sc.make x fv cp ref ser = some ⟨id, [], []⟩ ∧ id.length = 12 ∧
      sc.Has id (sc.allFields fv' cp ref' ser') ∧
      translate [p0, p1] id = some (sc.urn (sc.allFields fv' cp ref' ser').tail, false) := by
  obtain ⟨fv', ref', ser', h1, h2, h3, h4, -, -, h7, -⟩ :=
    C86_filled x hx hb sc fv cp ref ser hfv hcp hg href hser
  obtain ⟨id, g1, g2, g3⟩ := C39_round_trip x hx sc fv' cp ref' ser' h1 p0 p1 hp
  obtain ⟨id', k1, k2, k3⟩ := C39_fields x hx sc fv' cp ref' ser' (wellFormed_encodable sc _ h1)
  rw [g1] at k1
  cases k1
  exact ⟨fv', ref', ser', id, h2, h3, h4, h1, by rw [h7]; exact g1, g2, k3, g3⟩

example : (Scheme.sgtin.make boundedBinutil [] "061414112345".toList [] []).map
    (fun m => (m.id.length, translate [0#8, 0#8] m.id)) = some (12,
      some ("urn:epc:id:sgtin:061414112345.9.274877906943".toList, false)) := by decide +kernel

/-- This needs a generator that stays below the bound. One that keeps to the length only can draw an
    item reference of two digits where there is room for one, and the translation of the tag crashes. -/
theorem C86_bound_matters : ∃ x : Binutil, x.Ok ∧ ∃ id,
    Scheme.sgtin.make x "3".toList "061414112345".toList [] "1".toList = some ⟨id, [], []⟩ ∧
    translate [0#8, 0#8] id = none :=
  ⟨sampleBinutil, sampleBinutil_ok, _, rfl, by decide +kernel⟩

/-- The omitted fields of a container: the owner code is three drawn letters, the equipment category U
    and the serial number six drawn digits. -/
theorem C86_container (x : Binutil) (oc ei csn : Str) (h1 : x.randomAlphabet 3 ≠ [])
    (h2 : (x.randomDigits 6).length = 6) :
    x.makeISO17363 false oc ei csn =
      x.makeISO17363 false (if oc = [] then x.randomAlphabet 3 else oc)
        (if ei = [] then ['U'] else ei) (if csn = [] then x.randomDigits 6 else csn) := by
  have h3 : x.randomDigits 6 ≠ [] := by intro h; rw [h] at h2; simp at h2
  have hpad : leftPad 6 (x.randomDigits 6) = x.randomDigits 6 := by
    unfold leftPad; rw [if_neg (by omega)]
  have hU : "U".toList = ['U'] := rfl
  unfold Binutil.makeISO17363
  simp only [Bool.false_eq_true, and_false, if_false, hU]
  by_cases ho : oc = [] <;> by_cases he : ei = [] <;> by_cases hc : csn = [] <;>
    simp [ho, he, hc, h1, h3, h2, hpad]

/-- The omitted serial of an ISO 17365 item: 18 drawn hexadecimal characters. -/
theorem C86_item (x : Binutil) (di iac cin sn : Str) (h : x.randomHex 18 ≠ []) :
    x.makeISO17365 false di iac cin sn =
      x.makeISO17365 false di iac cin (if sn = [] then x.randomHex 18 else sn) := by
  unfold Binutil.makeISO17365
  simp only [Bool.false_eq_true, and_false, if_false]
  by_cases hs : sn = [] <;> simp [hs, h]

example : sampleBinutil.makeISO17363 false [] [] [] =
    sampleBinutil.makeISO17363 false "QQQ".toList "U".toList "777777".toList ∧
    sampleBinutil.makeISO17365 false "25S".toList "UN".toList "043325711".toList [] =
    sampleBinutil.makeISO17365 false "25S".toList "UN".toList "043325711".toList
      "FFFFFFFFFFFFFFFFFF".toList := by decide +kernel

end Gosstrak
