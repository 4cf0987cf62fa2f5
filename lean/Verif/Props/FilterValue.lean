import Verif.Props.Encode
import Verif.Proofs.Generate

/-! C85: any text as filter value. -/
namespace Gosstrak

theorem parseSigned_eq (sign d rest s : Str) (h : Signed s sign d rest) :
    parseSigned s = (parseDigits (d ++ rest)).map
      fun n : Nat => if sign = ['-'] then - Int.ofNat n else Int.ofNat n := by
  obtain ⟨h1, h2, _, _⟩ := h
  rcases h2 with rfl | rfl | ⟨rfl, h3, h4⟩
  · rw [h1]; rfl
  · rw [h1]
    show (parseDigits (d ++ rest)).map _ = _
    have e : ¬ (['+'] = ['-']) := by decide
    simp only [if_neg e]
  · rw [List.nil_append] at h1
    rw [← h1]
    unfold parseSigned
    split
    · exact absurd rfl h3
    · exact absurd rfl h4
    · simp

theorem parseInt32_counts (s : Str) (v : Int) (h : Counts s v) : parseInt32 s = v := by
  obtain ⟨sign, d, rest, hs, h⟩ := h
  unfold parseInt32
  rw [parseSigned_eq sign d rest s hs, parseDigits_spec d rest hs.digits hs.rest]
  rcases h with ⟨h1, rfl⟩ | ⟨h1, h2, h3, rfl⟩ | ⟨h1, h2, rfl⟩
  · rw [if_pos h1]
    show max _ (min _ (if _ then _ else _)) = _
    split <;> decide
  · rw [if_neg (by omega), if_pos ⟨h2, h3⟩]
    show max _ (min _ (if _ then _ else _)) = _
    split
    · show max _ (min _ (-(decVal d : Int))) = _
      omega
    · show max _ (min _ (decVal d : Int)) = _
      omega
  · rw [if_neg (by omega), if_neg (by rintro ⟨a, b⟩; rcases h2 with h | h <;> contradiction)]
    rfl

/-- Every text counts for exactly one number, of 32 bits. -/
theorem C85_counts (s : Str) : ∃ v : Int, Counts s v ∧ (∀ w, Counts s w → w = v) ∧
    -2147483648 ≤ v ∧ v ≤ 2147483647 := by
  have digits : ∀ t : Str, ∃ d rest : Str, t = d ++ rest ∧ IsDigits d ∧
      ∀ c, rest.head? = some c → ¬ ('0' ≤ c ∧ c ≤ '9') := by
    intro t
    induction t with
    | nil => exact ⟨[], [], rfl, (fun c h => by (cases h)), by simp⟩
    | cons c t ih =>
      by_cases hc : '0' ≤ c ∧ c ≤ '9'
      · obtain ⟨d, rest, h1, h2, h3⟩ := ih
        refine ⟨c :: d, rest, by rw [h1]; rfl, ?_, h3⟩
        intro e he
        rcases List.mem_cons.mp he with rfl | he
        · exact hc
        · exact h2 e he
      · refine ⟨[], c :: t, rfl, (fun c h => by (cases h)), ?_⟩
        intro e he
        rw [List.head?_cons] at he
        cases he
        exact hc
  have hsig : ∃ sign d rest, Signed s sign d rest := by
    by_cases h1 : ∃ t, s = '-' :: t
    · obtain ⟨t, rfl⟩ := h1
      obtain ⟨d, rest, rfl, b, c⟩ := digits t
      exact ⟨['-'], d, rest, rfl, Or.inl rfl, b, c⟩
    by_cases h2 : ∃ t, s = '+' :: t
    · obtain ⟨t, rfl⟩ := h2
      obtain ⟨d, rest, rfl, b, c⟩ := digits t
      exact ⟨['+'], d, rest, rfl, Or.inr (Or.inl rfl), b, c⟩
    obtain ⟨d, rest, a, b, c⟩ := digits s
    refine ⟨[], d, rest, a, Or.inr (Or.inr ⟨rfl, ?_, ?_⟩), b, c⟩
    · intro h
      match s, h with
      | c :: t, h => rw [List.head?_cons] at h; cases h; exact h1 ⟨t, rfl⟩
    · intro h
      match s, h with
      | c :: t, h => rw [List.head?_cons] at h; cases h; exact h2 ⟨t, rfl⟩
  have hc : ∃ v, Counts s v := by
    obtain ⟨sign, d, rest, h⟩ := hsig
    by_cases h1 : 4294967295 < decVal d
    · exact ⟨_, sign, d, rest, h, Or.inl ⟨h1, rfl⟩⟩
    · by_cases h2 : d ≠ [] ∧ rest = []
      · exact ⟨_, sign, d, rest, h, Or.inr (Or.inl ⟨by omega, h2.1, h2.2, rfl⟩)⟩
      · refine ⟨0, sign, d, rest, h, Or.inr (Or.inr ⟨by omega, ?_, rfl⟩)⟩
        by_cases h3 : d = []
        · exact Or.inl h3
        · exact Or.inr fun h4 => h2 ⟨h3, h4⟩
  obtain ⟨v, hv⟩ := hc
  refine ⟨v, hv, fun w hw => ?_, ?_⟩
  · rw [← parseInt32_counts s v hv, ← parseInt32_counts s w hw]
  · obtain ⟨sign, d, rest, _, h | h | h⟩ := hv
    · rw [h.2]; split <;> omega
    · rw [h.2.2.2]; split <;> omega
    · rw [h.2.2]; omega

/-- The cases in which a text counts for a number 0 to 7 as written. -/
theorem C85_filter_value (fv : Str) (h : IsFilterValue fv) : Counts fv (decVal fv : Int) := by
  obtain ⟨h1, h2, h3⟩ := h
  refine ⟨[], fv, [], ⟨by simp, Or.inr (Or.inr ⟨rfl, ?_, ?_⟩), h1, by simp⟩,
    Or.inr (Or.inl ⟨by omega, h2, rfl, ?_⟩)⟩
  · intro h
    exact absurd (h1 '-' (List.mem_of_mem_head? h)).1 (by decide)
  · intro h
    exact absurd (h1 '+' (List.mem_of_mem_head? h)).1 (by decide)
  · rw [if_neg (by decide)]
    omega

theorem counts_none (s : Str) (hs : s ≠ []) (h1 : s.head? ≠ some '-') (h2 : s.head? ≠ some '+')
    (h3 : ∀ c, s.head? = some c → ¬ ('0' ≤ c ∧ c ≤ '9')) : Counts s 0 :=
  ⟨[], [], s, ⟨rfl, Or.inr (Or.inr ⟨rfl, h1, h2⟩), by (intro c h; cases h), h3⟩,
    Or.inr (Or.inr ⟨by decide, Or.inr hs, rfl⟩)⟩

example : Counts "abc".toList 0 ∧ Counts "-1".toList (-1) ∧ Counts "+9".toList 9 ∧
    Counts "4294967296 apples".toList 2147483647 ∧ Counts "3 apples".toList 0 := by
  refine ⟨counts_none _ (by decide) (by decide) (by decide) ?_,
    ⟨['-'], ['1'], [], ⟨rfl, by decide, by decide, by simp⟩, Or.inr (Or.inl (by decide +kernel))⟩,
    ⟨['+'], ['9'], [], ⟨rfl, by decide, by decide, by simp⟩, Or.inr (Or.inl (by decide +kernel))⟩,
    ⟨[], "4294967296".toList, " apples".toList, ⟨rfl, by decide, by decide, ?_⟩,
      Or.inl (by decide +kernel)⟩,
    ⟨[], "3".toList, " apples".toList, ⟨rfl, by decide, by decide, ?_⟩,
      Or.inr (Or.inr (by decide +kernel))⟩⟩ <;>
  · intro c h
    have := Option.some.inj h
    subst this
    decide

/-! ### bits -/

theorem fmtBin_bits (n : Nat) (hn : n < 2 ^ 31) : ∃ k, 3 ≤ k ∧ k ≤ 31 ∧ n < 2 ^ k ∧
    (k = 3 ∨ 2 ^ (k - 1) ≤ n) ∧ BinPadded k n (fmtBin 3 (n : Int)) := by
  by_cases h8 : n < 8
  · exact ⟨3, by omega, by omega, h8, Or.inl rfl, fmtBin_padded 3 n (by omega) h8⟩
  · have hb := binStr_numeral n
    have h3 : ¬ (binStr n).length ≤ 3 := fun h => h8 ((binNumeral_length n 3 _ hb (by omega)).mp h)
    have e : fmtBin 3 (n : Int) = binStr n := by
      unfold fmtBin leftPad
      rw [if_neg (by omega), List.nil_append, if_neg (by show ¬ (binStr n).length < 3; omega)]
      rfl
    refine ⟨(binStr n).length, by omega, (binNumeral_length n 31 _ hb (by omega)).mpr hn,
      (binNumeral_length n _ _ hb (by omega)).mp (Nat.le_refl _), Or.inr ?_, by rw [e]; exact ⟨hb.1, rfl, hb.2.2.1⟩⟩
    apply Classical.byContradiction
    intro hlt
    have := (binNumeral_length n ((binStr n).length - 1) _ hb (by omega)).mpr (by omega)
    omega

/-- Counting for a number that is not negative, the field is written with three bits, or more if they
    are needed, and the filter selects the tags of the scheme with this number in these bits. -/
theorem C85_selects (x : Binutil) (sc : Scheme) (fv : Str) (v : Nat) (hne : fv ≠ [])
    (h : Counts fv (v : Int)) :
    ∃ s k, x.encoder sc.typeName [fv] = some s ∧ 3 ≤ k ∧ k ≤ 31 ∧ v < 2 ^ k ∧
      (k = 3 ∨ 2 ^ (k - 1) ≤ v) ∧ ∀ id : List Byte, id.length = 12 →
      ((newFilter s 0).matchID id = some true ↔ id.head? = some sc.header ∧ field id 8 k = v) ∧
      ((newFilter s 0).matchID id = some false ↔ ¬ (id.head? = some sc.header ∧ field id 8 k = v)) := by
  have hv : v < 2 ^ 31 := by
    obtain ⟨w, h1, h2, h3⟩ := C85_counts fv
    have := h2 _ h
    omega
  obtain ⟨k, k1, k2, k3, k4, hk⟩ := fmtBin_bits v hv
  have hf : BinPadded k v (x.getFilter fv) := by
    unfold Binutil.getFilter
    rw [if_pos hne, parseInt32_counts fv _ h]
    exact hk
  have hhd := sc.headerText_padded
  refine ⟨_, k, (encoder_pieces x sc fv [] [] []).1, k1, k2, k3, k4, fun id hl => ?_⟩
  have hc := C01_match_iff_carries (sc.headerText ++ x.getFilter fv) (hhd.1.append hf.1).filterStr 0 id
    ⟨by rw [List.length_append, hhd.2.1, hf.2.1]; omega, by omega⟩
  rw [carries_append, carries_padded hhd, hhd.2.1, carries_padded hf, field_head id _ (by omega)] at hc
  exact hc

/-- A text that counts for 0 to 7, such as one that is no number and counts for 0, selects the tags with
    this filter value. -/
theorem C85_small (x : Binutil) (sc : Scheme) (fv : Str) (v : Nat) (hne : fv ≠ [])
    (h : Counts fv (v : Int)) (fv' : Str) (hfv : IsFilterValue fv') (hv : decVal fv' = v)
    (fields : List Str) :
    x.encoder sc.typeName (fv :: fields) = x.encoder sc.typeName (fv' :: fields) := by
  have e : x.getFilter fv = x.getFilter fv' := by
    unfold Binutil.getFilter
    rw [if_pos hne, if_pos hfv.2.1, parseInt32_counts fv _ h,
      parseInt32_counts fv' _ (C85_filter_value fv' hfv), hv]
  rw [encoder_scheme, encoder_scheme]
  cases sc <;> dsimp only <;>
  · first | unfold Binutil.prefixFilter3 | unfold Binutil.prefixFilter4
    match fields with
    | [] => dsimp only; rw [e]
    | [_] => dsimp only; rw [e]
    | [_, _] => dsimp only; rw [e]
    | [_, _, _] => first | rfl | (dsimp only; rw [e])
    | _ :: _ :: _ :: _ :: _ => rfl

example : Counts "abc".toList ((0 : Nat) : Int) ∧ IsFilterValue "0".toList ∧
    sampleBinutil.encoder "sgtin-96".toList ["abc".toList, "0614141".toList] =
      sampleBinutil.encoder "sgtin-96".toList ["0".toList, "0614141".toList] := by
  refine ⟨counts_none _ (by decide) (by decide) (by decide) ?_, by decide, by decide +kernel⟩
  intro c h
  have := Option.some.inj h
  subst this
  decide

theorem mem_filterRunes (s : Str) (o : Nat) (c : Char) (h : c ∈ s) (hx : c ≠ 'x') :
    c ∈ (makeFilter s o).2.1 := by
  rw [(makeFilter_closed s.length s o (Nat.le_refl _)).1]
  rw [List.mem_append, List.mem_append]
  refine Or.inl (Or.inr (List.mem_map.mpr ⟨c, h, ?_⟩))
  unfold xToOne
  rw [if_neg hx]

theorem parseBin_bad (s : Str) (c : Char) (h : c ∈ s) (h0 : c ≠ '0') (h1 : c ≠ '1') : parseBin s = none := by
  cases hp : parseBin s with
  | none => rfl
  | some p =>
    unfold parseBin at hp
    split at hp
    · cases hp
    · rcases parseBinAux_isBitStr _ s p (Nat.le_refl _) hp c h with h | h
      · exact absurd h h0
      · exact absurd h h1

/-- a filter string with a character other than 0, 1 and x has no bytes, and matches everything -/
theorem newFilter_bad (s : Str) (o : Nat) (c : Char) (h : c ∈ s) (h0 : c ≠ '0') (h1 : c ≠ '1')
    (hx : c ≠ 'x') (id : List Byte) : (newFilter s o).matchID id = some true := by
  have hp := parseBin_bad _ c (mem_filterRunes s o c h hx) h0 h1
  unfold FilterObject.matchID newFilter
  dsimp only
  rw [hp]
  rfl

theorem getFilter_minus (x : Binutil) (fv : Str) (v : Int) (hne : fv ≠ []) (h : Counts fv v) (hv : v < 0) :
    '-' ∈ x.getFilter fv := by
  unfold Binutil.getFilter fmtBin
  rw [if_pos hne, parseInt32_counts fv v h, if_pos hv]
  exact List.mem_append_left _ (by simp)

/-- Counting for a negative number, the filter matches every ID whatsoever, whatever the other fields
    are: the sign gets into the filter string, whose parse error is dropped. -/
theorem C85_negative (x : Binutil) (sc : Scheme) (fv : Str) (v : Int) (hne : fv ≠ [])
    (h : Counts fv v) (hv : v < 0) (fields : List Str) (s : Str)
    (hs : x.encoder sc.typeName (fv :: fields) = some s) (id : List Byte) :
    (newFilter s 0).matchID id = some true := by
  have hm := getFilter_minus x fv v hne h hv
  refine newFilter_bad s 0 '-' ?_ (by decide) (by decide) (by decide) id
  rw [encoder_scheme] at hs
  have key3 : ∀ hd tb, x.prefixFilter3 hd tb (fv :: fields) = some s → '-' ∈ s := by
    intro hd tb hs
    unfold Binutil.prefixFilter3 at hs
    match fields, hs with
    | [], hs => cases hs; simp [hm]
    | [_], hs => cases hs; simp [hm]
    | [_, _], hs => cases hs; simp [hm]
    | _ :: _ :: _ :: _, hs => cases hs
  have key4 : ∀ hd tb, x.prefixFilter4 hd tb (fv :: fields) = some s → '-' ∈ s := by
    intro hd tb hs
    unfold Binutil.prefixFilter4 at hs
    match fields, hs with
    | [], hs => cases hs; simp [hm]
    | [_], hs => cases hs; simp [hm]
    | [_, _], hs => cases hs; simp [hm]
    | [_, _, _], hs => cases hs; simp [hm]
    | _ :: _ :: _ :: _ :: _, hs => cases hs
  cases sc
  · exact key4 _ _ hs
  · exact key3 _ _ hs
  · exact key4 _ _ hs
  · exact key3 _ _ hs

example : (sampleBinutil.encoder "sgtin-96".toList ["-1".toList, "0614141".toList]).map (fun s =>
    (s, (newFilter s 0).matchID [], (newFilter s 0).matchID [1#8, 2#8, 3#8])) =
    some ("00110000-001101000010010101111011111101".toList, some true, some true) := by decide +kernel

theorem matches_mem (l : ListEngine) (f : FilterObject) (u : Str) (h : (f, u) ∈ l) (id : List Byte)
    (hf : f.matchID id = some true) (uris : List Str) (hm : l.matches id = some uris) : u ∈ uris := by
  induction l generalizing uris with
  | nil => cases h
  | cons a l ih =>
    obtain ⟨g, w⟩ := a
    unfold ListEngine.matches at hm
    rcases List.mem_cons.mp h with h | h
    · cases h
      rw [hf] at hm
      dsimp only at hm
      obtain ⟨r, _, rfl⟩ := Option.map_eq_some_iff.mp hm
      exact List.mem_cons_self
    · cases hg : g.matchID id with
      | none => rw [hg] at hm; cases hm
      | some b =>
        rw [hg] at hm
        dsimp only at hm
        obtain ⟨r, hr, rfl⟩ := Option.map_eq_some_iff.mp hm
        have := ih h r hr
        split
        · exact List.mem_cons_of_mem _ this
        · exact this

/-- So the subscriber of a pattern with such a filter value is told of every tag by the list engine. -/
theorem C85_reported (x : Binutil) (sc : Scheme) (fv : Str) (v : Int) (hne : fv ≠ [])
    (h : Counts fv v) (hv : v < 0) (fields : List Str) (s : Str)
    (hs : x.encoder sc.typeName (fv :: fields) = some s) (sub : Subs) (uri : Str)
    (hin : (s, uri) ∈ toByteSubscriptions x.encoder sub) (tr : Translator) (pc id : List Byte)
    (r : SearchResult) (hr : (newList x.encoder sub).search tr pc id = some r) : uri ∈ r.reportURIs := by
  have hl : (newFilter s 0, uri) ∈ newList x.encoder sub := by
    unfold newList
    rw [exactMatches_eq]
    exact List.mem_map.mpr ⟨(s, uri), (mem_sortedPairs _ (isMap_toByteSubscriptions _ _) _).mpr hin, rfl⟩
  unfold ListEngine.search at hr
  cases hm : (newList x.encoder sub).matches id with
  | none => rw [hm] at hr; cases hr
  | some uris =>
    rw [hm] at hr
    have hu := matches_mem _ _ _ hl id (C85_negative x sc fv v hne h hv fields s hs id) uris hm
    unfold finishSearch at hr
    dsimp only at hr
    rw [if_neg (by have := List.length_pos_of_mem hu; omega)] at hr
    split at hr
    · cases hr
    · cases hr; exact hu

example : (newList sampleBinutil.encoder [("u".toList, ["urn:epc:pat:sgtin-96:-1".toList])]).search
    translate [0#8, 0#8] [0xE2#8, 0#8] = some ⟨[], ["u".toList], false⟩ := by decide +kernel

/-- A tag is made exactly of a filter value that counts for 0 to 7, the other fields being valid. -/
theorem C85_make (x : Binutil) (hx : x.Ok) (sc : Scheme) (fv cp ref ser : Str) (v : Int) (hne : fv ≠ [])
    (h : Counts fv v) (hcp : IsCompanyPrefix cp)
    (href : ref = [] ∨ Fits (sc.width - companyBits (partitionFor cp)) ref)
    (hser : sc.hasSerial → ser = [] ∨ Fits 38 ser) :
    (∃ m, sc.make x fv cp ref ser = some m) ↔ 0 ≤ v ∧ v ≤ 7 := by
  have hcne : cp ≠ [] := by intro e; have := hcp.2.1; simp [e] at this
  constructor
  · rintro ⟨m, hm⟩
    have h0 : 0 ≤ v := by
      apply Classical.byContradiction
      intro hv
      have hb : '-' ∈ x.getFilter fv := getFilter_minus x fv v hne h (by omega)
      rw [make_eq, if_neg hcne] at hm
      unfold pack96 at hm
      rw [parseBin_bad _ '-' (by simp [hb]) (by decide) (by decide)] at hm
      split at hm <;> cases hm
    refine ⟨h0, ?_⟩
    obtain ⟨n, rfl⟩ : ∃ n : Nat, v = n := ⟨v.toNat, by omega⟩
    have hn : n < 2 ^ 31 := by
      obtain ⟨w, h1, h2, h3⟩ := C85_counts fv
      have := h2 _ h
      omega
    obtain ⟨k, k1, k2, k3, k4, hk⟩ := fmtBin_bits n hn
    have hf : BinPadded k n (x.getFilter fv) := by
      unfold Binutil.getFilter
      rw [if_pos hne, parseInt32_counts fv _ h]
      exact hk
    -- the same call with filter value 0 has 88 bits
    obtain ⟨id, g1, g2, -⟩ := make_carries x hx sc "0".toList cp ref ser (by decide) hcp href hser
    have hf0 := getFilter_padded x "0".toList (by decide)
    rw [make_eq, if_neg hcne] at g1 hm
    unfold pack96 at g1 hm
    split at g1
    · cases g1
    rename_i l1
    split at hm
    · cases hm
    rename_i l2
    simp only [List.length_append, hf.2.1, hf0.2.1] at l1 l2
    have hk3 : k = 3 := by omega
    subst hk3
    omega
  · rintro ⟨h0, h7⟩
    obtain ⟨n, rfl⟩ : ∃ n : Nat, v = n := ⟨v.toNat, by omega⟩
    have hd : IsFilterValue (decStr n) := by
      have := decStr_numeral n
      exact ⟨this.1, this.2.1, by rw [this.2.2.1]; omega⟩
    obtain ⟨id, g1, -⟩ := make_carries x hx sc (decStr n) cp ref ser hd hcp href hser
    refine ⟨_, Eq.trans ?_ g1⟩
    have e : x.getFilter fv = x.getFilter (decStr n) := by
      unfold Binutil.getFilter
      rw [if_pos hne, if_pos hd.2.1, parseInt32_counts fv _ h,
        parseInt32_counts _ _ (C85_filter_value _ hd), (decStr_numeral n).2.2.1]
    rw [make_eq, make_eq, e]

example : Scheme.giai.make sampleBinutil "-1".toList "0614141".toList "32".toList [] = none ∧
    Scheme.giai.make sampleBinutil "8".toList "0614141".toList "32".toList [] = none ∧
    (Scheme.giai.make sampleBinutil "seven".toList "0614141".toList "32".toList []).isSome := by
  decide +kernel

/-- An empty company prefix in a pattern is written as partition 0 without company bits: the filter
    selects the tags with this filter value and twelve digits of company prefix, any at all. -/
theorem C85_empty_company (x : Binutil) (sc : Scheme) (fv : Str) (hfv : IsFilterValue fv) :
    ∃ s, x.encoder sc.typeName [fv, []] = some s ∧ ∀ id : List Byte, id.length = 12 →
      ((newFilter s 0).matchID id = some true ↔ sc.Has id [fv] ∧ partitionOf id = 0) ∧
      ((newFilter s 0).matchID id = some false ↔ ¬ (sc.Has id [fv] ∧ partitionOf id = 0)) := by
  have hrow : rowFor sc.table ([] : Str).length = none := by cases sc <;> decide
  have hhd := sc.headerText_padded
  have hf := getFilter_padded x fv hfv
  have hp : BinPadded 3 0 (partitionBits none) := by decide
  refine ⟨_, (encoder_pieces x sc fv [] [] []).2.1, fun id hl => ?_⟩
  have he : x.getCompanyPrefix [] (rowFor sc.table ([] : Str).length) = [] := rfl
  rw [he, hrow, List.append_nil]
  have hc := C01_match_iff_carries (sc.headerText ++ x.getFilter fv ++ partitionBits none)
    ((hhd.1.append hf.1).append hp.1).filterStr 0 id
    ⟨by simp only [List.length_append, hhd.2.1, hf.2.1, hp.2.1]; omega, by omega⟩
  simp only [carries_append, carries_padded hhd, carries_padded hf, carries_padded hp,
    List.length_append, hhd.2.1, hf.2.1, field_head id _ (show 0 < id.length by omega)] at hc
  exact hc

example : (sampleBinutil.encoder "sscc-96".toList ["3".toList, []]) = some "00110001011000".toList := by
  decide +kernel

end Gosstrak
