import Verif.Proofs.Iso
import Verif.Props.Encode

/-!
C42-C47, C67, C68: ISO codes, check digits, ISO patterns and the protocol-control word.
-/
namespace Gosstrak

theorem IsSixBit.orSpace {s : Str} (h : IsSixBit s) : IsSixBitOrSpace s :=
  fun c hc => ⟨by have := (h c hc).1; omega, (h c hc).2⟩

theorem IsSixBit.filter {s : Str} (h : IsSixBit s) : s.filter (fun c => decide (c ≠ ' ')) = s := by
  rw [List.filter_eq_self]
  intro c hc
  rw [decide_eq_true_iff]
  rintro rfl
  exact absurd (h _ hc).1 (by decide)

theorem IsSixBit.append {s t : Str} (h : IsSixBit s) (h' : IsSixBit t) : IsSixBit (s ++ t) := by
  intro c hc
  rcases List.mem_append.mp hc with hc | hc
  · exact h c hc
  · exact h' c hc

/-! ### C42 -/

/-- Decoding the padded six-bit encoding of a string gives the string back. -/
theorem C42_round_trip (x : Binutil) (hx : x.Ok) (s : Str) (h : IsSixBit s) (hne : s ≠ []) :
    ∃ id n, Binutil.packISO (x.sixBits s) = some (⟨id, [], []⟩, n) ∧ n = 8 * id.length ∧
      parse6Bit id = s := by
  obtain ⟨id, n, k, h1, h2, _, _, _, h3, h4⟩ := packISO_spec x hx s h.orSpace hne
  refine ⟨id, n, h1, h2, ?_⟩
  rw [parse6Bit_text, sixBitText_padded x hx s h.orSpace k id h3 h4, h.filter]

example : IsSixBit "7BCSQU3054383".toList ∧
    Binutil.packISO (sampleBinutil.sixBits "7BCSQU3054383".toList) =
      some (⟨[220#8, 32#8, 211#8, 69#8, 92#8, 240#8, 215#8, 76#8, 248#8, 206#8], [], []⟩, 80) ∧
    parse6Bit [220#8, 32#8, 211#8, 69#8, 92#8, 240#8, 215#8, 76#8, 248#8, 206#8]
      = "7BCSQU3054383".toList := by decide +kernel

/-- Spaces are the padding symbol and are lost wherever they stand. -/
theorem C42_spaces_lost (x : Binutil) (hx : x.Ok) (s : Str) (h : IsSixBitOrSpace s) (hne : s ≠ []) :
    ∃ id n, Binutil.packISO (x.sixBits s) = some (⟨id, [], []⟩, n) ∧
      parse6Bit id = s.filter fun c => decide (c ≠ ' ') := by
  obtain ⟨id, n, k, h1, h2, _, _, _, h3, h4⟩ := packISO_spec x hx s h hne
  exact ⟨id, n, h1, by rw [parse6Bit_text, sixBitText_padded x hx s h k id h3 h4]⟩

example : IsSixBitOrSpace "A B".toList ∧
    (Binutil.packISO (sampleBinutil.sixBits "A B".toList)).map (fun m => parse6Bit m.1.id)
      = some "AB".toList := by decide +kernel

/-! ### C43 -/

/-- Padding appends the start of the repeated symbol 100000 up to the next multiple of 16 bits, and
    returns the new number of bits. -/
theorem C43_padding (bs : Str) :
    ∃ t, pad6Bit bs = (bs ++ t, (bs ++ t).length) ∧ (bs ++ t).length % 16 = 0 ∧ t.length < 16 ∧
      t <+: "100000100000100000".toList := by
  obtain ⟨k, h1, h2, h3⟩ := pad6Bit_eq bs
  have hl := (padBits_bits k).2
  refine ⟨padBits k, ?_, ?_, by omega, ?_⟩
  · rw [h3, List.length_append, hl]
  · rw [List.length_append, hl]; exact h2
  · have : ∀ k < 16, padBits k <+: "100000100000100000".toList := by decide
    exact this k h1

example : pad6Bit "111111".toList = ("1111111000001000".toList, 16) := by decide +kernel

/-! ### C44 -/

theorem code_char (c : Char) (h : ('0' ≤ c ∧ c ≤ '9') ∨ ('A' ≤ c ∧ c ≤ 'Z')) :
    indexOf c cdAlphabet = (iso6346Value c : Int) ∧ iso6346Value c ≤ 38 ∧ 33 ≤ c.toNat ∧ c.toNat < 96 := by
  have key : ∀ n < 128, (48 ≤ n ∧ n ≤ 57) ∨ (65 ≤ n ∧ n ≤ 90) →
      indexOf (Char.ofNat n) cdAlphabet = (iso6346Value (Char.ofNat n) : Int) ∧
        iso6346Value (Char.ofNat n) ≤ 38 := by decide
  have hn : (48 ≤ c.toNat ∧ c.toNat ≤ 57) ∨ (65 ≤ c.toNat ∧ c.toNat ≤ 90) := by
    rcases h with ⟨h1, h2⟩ | ⟨h1, h2⟩
    · exact Or.inl ⟨h1, h2⟩
    · exact Or.inr ⟨h1, h2⟩
  have := key c.toNat (by omega) hn
  rw [Char.ofNat_toNat] at this
  exact ⟨this.1, this.2, by omega, by omega⟩

theorem cdSum_spec (cn : Str) (h : IsCode cn) : cdSum cn =
    (((List.range cn.length).map fun i => 2 ^ i * iso6346Value ((cn[i]?).getD '0')).sum : Nat) := by
  unfold cdSum
  have key : ∀ l : List Nat, (∀ i ∈ l, i < cn.length) →
      (l.map fun i => 2 ^ i * indexOf ((cn[i]?).getD ' ') cdAlphabet).sum =
        (((l.map fun i => 2 ^ i * iso6346Value ((cn[i]?).getD '0')).sum : Nat) : Int) := by
    intro l
    induction l with
    | nil => intro _; rfl
    | cons i l ih =>
      intro hl
      rw [List.map_cons, List.sum_cons, List.map_cons, List.sum_cons,
        ih fun j hj => hl j (List.mem_cons_of_mem _ hj)]
      have hi := hl i List.mem_cons_self
      have e : cn[i]? = some cn[i] := List.getElem?_eq_getElem hi
      rw [e, Option.getD_some, Option.getD_some,
        (code_char cn[i] (h _ (List.getElem_mem hi))).1]
      push_cast
      rfl
  exact key _ fun i hi => List.mem_range.mp hi

/-- The check digit of a code of ten digits and upper-case letters, in both packages. -/
theorem C44_check_digit (cn : Str) (hl : cn.length = 10) (h : IsCode cn) :
    isoCD cn = some (checkDigit cn : Int) ∧ schemeCD cn = some (checkDigit cn : Int) ∧
      checkDigit cn < 10 := by
  have h1 : isoCD cn = some (checkDigit cn : Int) := by
    unfold isoCD checkDigit
    rw [if_neg (by simpa using hl), cdSum_spec cn h]
    dsimp only
    generalize ((List.range cn.length).map fun i => 2 ^ i * iso6346Value ((cn[i]?).getD '0')).sum = n
    congr 1
    rw [Int.tdiv_eq_ediv_of_nonneg (by omega), Int.tmod_eq_emod_of_nonneg (by omega)]
    omega
  refine ⟨h1, ?_, Nat.mod_lt _ (by omega)⟩
  have hup : toUpper cn = cn := by
    unfold toUpper
    conv => rhs; rw [← List.map_id cn]
    apply List.map_congr_left
    intro c hc
    have hn : c.toNat ≤ 90 := by
      rcases h c hc with ⟨_, h2⟩ | ⟨_, h2⟩
      · have : c.toNat ≤ 57 := h2
        omega
      · exact h2
    unfold Char.toUpper
    rw [dif_neg]
    · rfl
    · intro hh
      have : (97 : Nat) ≤ c.val.toNat := hh.1
      have : c.toNat = c.val.toNat := rfl
      omega
  unfold schemeCD
  rw [if_neg (by simpa using hl), hup, h1]

example : IsCode "CSQU305438".toList ∧ checkDigit "CSQU305438".toList = 3 := by decide +kernel

/-- Any other number of characters is an error. -/
theorem C44_length (cn : Str) : (isoCD cn = none ↔ cn.length ≠ 10) ∧ (schemeCD cn = none ↔ cn.length ≠ 10) := by
  have hu : (toUpper cn).length = cn.length := by simp [toUpper]
  have : ∀ s : Str, isoCD s = none ↔ s.length ≠ 10 := by
    intro s; unfold isoCD
    by_cases h : s.length = 10 <;> simp [h]
  refine ⟨this cn, ?_⟩
  unfold schemeCD
  split
  · simp_all
  · rw [this, hu]

/-- Characters outside the alphabet are not rejected and count as -1, so that the result may be
    negative; lower-case letters count as -1 in one package and as upper-case ones in the other. -/
theorem C44_other_characters : isoCD "-000000000".toList = some (-1) ∧
    isoCD "csqu305438".toList = some 9 ∧ schemeCD "csqu305438".toList = some 3 := by decide +kernel

/-! ### C45 -/

/-- Exactly when a pattern of four fields is an error: the check digit is computed over data
    identifier, owner code and serial number, and needs ten characters. -/
theorem C45_error_iff (x : Binutil) (d o e c : Str) :
    x.encoder "iso17363".toList [d, o, e, c] = none ↔ 6 < c.length ∨ d.length + o.length ≠ 4 := by
  have henc : x.encoder "iso17363".toList [d, o, e, c] = x.prefixFilterISO17363 [d, o, e, c] := rfl
  rw [henc]
  unfold Binutil.prefixFilterISO17363
  dsimp only
  by_cases h : 6 < c.length
  · rw [if_pos h]; simp [h]
  · rw [if_neg h]
    have hlen : (leftPad 6 c).length = 6 := by
      unfold leftPad
      split
      · simp [zeroPadding]; omega
      · omega
    have hcd := (C44_length (d ++ o ++ leftPad 6 c)).1
    simp only [List.length_append, hlen] at hcd
    cases e : isoCD (d ++ o ++ leftPad 6 c) with
    | none =>
      rw [e] at hcd
      simp only [true_iff] at hcd
      simp [h]; omega
    | some v =>
      rw [e] at hcd
      simp only [reduceCtorEq, false_iff] at hcd
      simp [h]; omega

/-- So every well-formed full pattern (data identifier of two, owner code of three characters) is
    rejected, whatever equipment and serial number are. -/
theorem C45_full_rejected (x : Binutil) (d o e c : Str) (hd : d.length = 2) (ho : o.length = 3) :
    x.encoder "iso17363".toList [d, o, e, c] = none :=
  (C45_error_iff x d o e c).mpr (Or.inr (by omega))

example : sampleBinutil.encoder "iso17363".toList
    ["7B".toList, "CSQ".toList, "U".toList, "305438".toList] = none ∧
    sampleBinutil.encoder "iso17363".toList
      ["7B".toList, "CS".toList, "U".toList, "305438".toList] ≠ none := by decide +kernel

/-- In a subscription it is therefore stored under the empty filter, which matches every tag. -/
theorem C45_full_matches_everything (x : Binutil) (sub : Subs) (uri pat : Str) (pats : List Str)
    (d o e c : Str) (hsub : (uri, pats) ∈ sub) (hpat : pat ∈ pats)
    (hof : PatternOf pat "iso17363".toList [d, o, e, c]) (hd : d.length = 2) (ho : o.length = 3) :
    Subscribes x.encoder sub uri [] ∧
      ∀ id : List Byte, id ≠ [] → (newFilter [] 0).matchID id = some true := by
  refine ⟨⟨pats, hsub, pat, hpat, _, _, hof, Or.inr ⟨C45_full_rejected x d o e c hd ho, rfl⟩⟩, ?_⟩
  intro id hid
  have hpos : 0 < id.length := List.length_pos_iff.mpr hid
  exact (C01_match_iff_carries [] (fun c hc => by cases hc) 0 id ⟨by simp, by omega⟩).1.mpr
    (carries_nil 0 id)

example : PatternOf "urn:epc:pat:iso17363:7B.CSQ.U.305438".toList "iso17363".toList
    ["7B".toList, "CSQ".toList, "U".toList, "305438".toList] := by
  refine ⟨"iso17363:7B.CSQ.U.305438".toList, "7B.CSQ.U.305438".toList, Or.inl (by decide), ?_, ?_⟩
  · rw [← splitOn_iff]; decide +kernel
  · rw [← splitOn_iff]; decide +kernel

/-! ### C46 -/

/-- More fields give an extension of the filter string. -/
theorem C46_extends (x : Binutil) (t : Str) (ht : t = "iso17363".toList ∨ t = "iso17365".toList)
    (fs gs : List Str) (s s' : Str) (h : x.encoder t fs = some s)
    (h' : x.encoder t (fs ++ gs) = some s') : s <+: s' := by
  have e1 : ∀ l, x.encoder "iso17363".toList l = x.prefixFilterISO17363 l := fun _ => rfl
  have e2 : ∀ l, x.encoder "iso17365".toList l = x.prefixFilterISO17365 l := fun _ => rfl
  -- in both schemes the filter is the concatenation of the given fields, the last of which may have a
  -- check digit appended
  have key3 : ∀ (l : List Str) (s : Str), x.prefixFilterISO17363 l = some s →
      (l.length ≤ 3 ∧ s = x.sixBits l.flatten) ∨
        (l.length = 4 ∧ x.sixBits (l.take 3).flatten <+: s) := by
    intro l s h
    match l, h with
    | [d], h =>
      cases h
      exact Or.inl ⟨by simp, by simp⟩
    | [d, o], h =>
      cases h
      exact Or.inl ⟨by simp, by simp [sixBits_append]⟩
    | [d, o, e], h =>
      cases h
      exact Or.inl ⟨by simp, by simp [sixBits_append]⟩
    | d :: o :: e :: c :: rest, h =>
      unfold Binutil.prefixFilterISO17363 at h
      dsimp only at h
      split at h
      · cases h
      · split at h
        · cases h
        · split at h
          · rename_i hr
            subst hr
            cases h
            exact Or.inr ⟨rfl, by simp [sixBits_append, List.append_assoc]⟩
          · cases h
  have key5 : ∀ (l : List Str) (s : Str), x.prefixFilterISO17365 l = some s →
      s = x.sixBits l.flatten := by
    intro l s h
    match l, h with
    | [d], h => cases h; simp
    | [d, o], h => cases h; simp [sixBits_append]
    | [d, o, e], h => cases h; simp [sixBits_append]
    | [d, o, e, c], h => cases h; simp [sixBits_append]
  rcases ht with rfl | rfl
  · rw [e1] at h h'
    rcases key3 _ _ h with ⟨l1, r1⟩ | ⟨l1, r1⟩
    · rcases key3 _ _ h' with ⟨l2, r2⟩ | ⟨l2, r2⟩
      · rw [r1, r2, List.flatten_append, sixBits_append]
        exact List.prefix_append _ _
      · rw [r1]
        refine List.IsPrefix.trans ?_ r2
        rw [List.take_append, List.take_of_length_le l1, List.flatten_append, sixBits_append]
        exact List.prefix_append _ _
    · have : gs = [] := by
        rcases key3 _ _ h' with ⟨l2, _⟩ | ⟨l2, _⟩
        · rw [List.length_append] at l2; omega
        · rw [List.length_append] at l2
          exact List.length_eq_zero_iff.mp (by omega)
      subst this
      rw [List.append_nil, h] at h'
      cases h'
      exact List.prefix_rfl
  · rw [e2] at h h'
    rw [key5 _ _ h, key5 _ _ h', List.flatten_append, sixBits_append]
    exact List.prefix_append _ _

example : sampleBinutil.encoder "iso17365".toList ["25S".toList] ≠ none ∧
    sampleBinutil.encoder "iso17365".toList ["25S".toList, "UN".toList] ≠ none := by decide +kernel

/-- So the more specific pattern matches a subset of the tags. -/
theorem C46_subset (x : Binutil) (t : Str) (ht : t = "iso17363".toList ∨ t = "iso17365".toList)
    (fs gs : List Str) (s s' : Str) (h : x.encoder t fs = some s)
    (h' : x.encoder t (fs ++ gs) = some s') (hs : IsFilterStr s') (id : List Byte)
    (hc : Covers s' 0 id) (hm : (newFilter s' 0).matchID id = some true) :
    (newFilter s 0).matchID id = some true := by
  obtain ⟨r, rfl⟩ := C46_extends x t ht fs gs s s' h h'
  rw [(C01_match_iff_carries _ hs 0 id hc).1, carries_append] at hm
  have h1 : IsFilterStr s := fun c hc => hs c (List.mem_append.mpr (Or.inl hc))
  have h2 : Covers s 0 id := ⟨by have := hc.1; rw [List.length_append] at this; omega, hc.2⟩
  exact (C01_match_iff_carries s h1 0 id h2).1.mpr hm.1

example : (fun s => IsFilterStr s ∧ Covers s 0 [203#8, 84#8, 213#8, 59#8] ∧
    (newFilter s 0).matchID [203#8, 84#8, 213#8, 59#8] = some true)
    ((sampleBinutil.encoder "iso17365".toList ["25S".toList, "UN".toList]).getD []) := by decide +kernel

/-! ### C47 -/

theorem binStr_log (n : Nat) (h : n ≠ 0) : (binStr n).length = Nat.log2 n + 1 := by
  have hb := binStr_numeral n
  have h1 := (binNumeral_length n (Nat.log2 n + 1) _ hb (by omega)).mpr Nat.lt_log2_self
  have h2 : ¬ (binStr n).length ≤ Nat.log2 n := by
    intro hle
    rcases Nat.eq_zero_or_pos (Nat.log2 n) with h0 | hpos
    · rw [h0] at hle
      exact hb.2.1 (List.length_eq_zero_iff.mp (by omega))
    · have := (binNumeral_length n (Nat.log2 n) _ hb hpos).mp hle
      have := Nat.log2_self_le h
      omega
  omega

theorem parse_first (bs : Str) (n : Nat) (hn : 0 < n) (hb : IsBitStr bs) (hl : bs.length = 8 * n) :
    ∃ b l, parseBin bs = some (b :: l) ∧ b.toNat = binVal (bs.take 8) := by
  obtain ⟨p, h1, h2, h3⟩ := parseBin_bits hn hl hb
  match p, h2 with
  | [], h2 => simp at h2; omega
  | b :: l, _ =>
    refine ⟨b, l, h1, ?_⟩
    have hc : Carries bs 0 (b :: l) := by
      intro i c hi _
      rw [Nat.zero_add, h3, hi]; simp
    rw [← List.take_append_drop 8 bs, carries_append, carries_field _ (fun c hc => hb c (List.mem_of_mem_take hc))] at hc
    rw [← hc.1, List.length_take, Nat.min_eq_left (by omega)]
    exact ((field_head (b :: l) b (by simp)).mpr rfl).symm

/-- Up to 511 bits: five bits of length in words, the ISO mark, and the AFI; translation with this PC
    is that of an ISO tag. -/
theorem C47_pc (length : Nat) (afi : Str) (h : length < 512) :
    ∃ p0 p1, makeISOPC length afi = some [p0, p1] ∧ p0.toNat = length / 16 * 8 + 1 ∧
      p1.toNat = parseHex8 afi ∧ ∀ id, translate [p0, p1] id = some (buildUII id p1) := by
  have hp := fmtBin_padded 5 (length / 16) (by omega) (by omega)
  obtain ⟨b, l, h1, h2⟩ := parse_first (fmtBin 5 ((length / 16 : Nat) : Int) ++ "001".toList) 1 (by omega)
    (hp.1.append (by decide)) (by rw [List.length_append, hp.2.1]; rfl)
  rw [List.take_of_length_le (by rw [List.length_append, hp.2.1]; decide), binVal_append, hp.2.2] at h2
  have h2 : b.toNat = length / 16 * 8 + 1 := h2
  refine ⟨b, _, by unfold makeISOPC; rw [h1], h2, ?_, fun id => translate_odd _ _ _ (by omega)⟩
  have : parseHex8 afi ≤ 255 := by
    unfold parseHex8 parseUint
    split
    · exact Nat.zero_le _
    · have := parseUintLoop_le hexVal 16 255 afi 0 (by omega)
      cases h : parseUintLoop hexVal 16 255 0 afi with
      | none => exact Nat.zero_le _
      | some v => exact this v h
  rw [BitVec.toNat_ofNat]
  omega

example : makeISOPC 80 "A9".toList = some [41#8, 169#8] ∧ parseHex8 "A9".toList = 169 := by decide +kernel

theorem hexVal_iff (c : Char) (a : Nat) : hexVal c = some a ↔ HexDigit c a := by
  have l1 : "0123456789abcdef".toList.length = 16 := by decide
  have l2 : "0123456789ABCDEF".toList.length = 16 := by decide
  constructor
  · intro h
    unfold hexVal at h
    have e : ∀ a b : Char, (a ≤ c ∧ c ≤ b) ↔ (a.toNat ≤ c.toNat ∧ c.toNat ≤ b.toNat) := by
      intro a b
      simp only [Char.le_def, UInt32.le_iff_toNat_le]
      rfl
    have k1 : ∀ n, n < 58 → 48 ≤ n → "0123456789abcdef".toList[n - 48]? = some (Char.ofNat n) := by
      decide +kernel
    have k2 : ∀ n, n < 103 → 97 ≤ n → "0123456789abcdef".toList[n - 87]? = some (Char.ofNat n) := by
      decide +kernel
    have k3 : ∀ n, n < 71 → 65 ≤ n → "0123456789ABCDEF".toList[n - 55]? = some (Char.ofNat n) := by
      decide +kernel
    split at h
    · rename_i hc
      rw [e] at hc
      have hc : 48 ≤ c.toNat ∧ c.toNat ≤ 57 := hc
      cases h
      have := k1 c.toNat (by omega) hc.1
      rw [Char.ofNat_toNat] at this
      exact Or.inl this
    · split at h
      · rename_i hc
        rw [e] at hc
        have hc : 97 ≤ c.toNat ∧ c.toNat ≤ 102 := hc
        cases h
        have := k2 c.toNat (by omega) hc.1
        rw [Char.ofNat_toNat] at this
        exact Or.inl this
      · split at h
        · rename_i hc
          rw [e] at hc
          have hc : 65 ≤ c.toNat ∧ c.toNat ≤ 70 := hc
          cases h
          have := k3 c.toNat (by omega) hc.1
          rw [Char.ofNat_toNat] at this
          exact Or.inr this
        · cases h
  · have d1 : ∀ a, a < 16 → hexVal ("0123456789abcdef".toList[a]?.getD ' ') = some a := by decide
    have d2 : ∀ a, a < 16 → hexVal ("0123456789ABCDEF".toList[a]?.getD ' ') = some a := by decide
    rintro (h | h)
    · have hlt := (List.getElem?_eq_some_iff.mp h).1
      have := d1 a (by omega)
      rw [h] at this
      exact this
    · have hlt := (List.getElem?_eq_some_iff.mp h).1
      have := d2 a (by omega)
      rw [h] at this
      exact this

theorem map_hexVal (d : Str) (ds : List Nat) (h : AllHex d ds) :
    d.map hexVal = ds.map some := by
  induction h with
  | nil => rfl
  | cons h _ ih => rw [List.map_cons, List.map_cons, ih, (hexVal_iff _ _).mpr h]

/-- The AFI byte of any text. With `d` the hexadecimal digits the text begins with: their number if
    they are the whole text and it fits a byte, 255 if it does not fit, whatever follows the digits, and
    0 otherwise. -/
theorem C47_afi (length : Nat) (h : length < 512) (d rest : Str) (v : Nat) (hd : HexDigits d v)
    (hr : ∀ c a, rest.head? = some c → ¬ HexDigit c a) :
    ∃ p0 p1, makeISOPC length (d ++ rest) = some [p0, p1] ∧
      p1.toNat = if 255 < v then 255 else if d ≠ [] ∧ rest = [] then v else 0 := by
  obtain ⟨ds, hd, rfl⟩ := hd
  obtain ⟨p0, p1, h1, -, h3, -⟩ := C47_pc length (d ++ rest) h
  refine ⟨p0, p1, h1, ?_⟩
  rw [h3]
  unfold parseHex8
  have ht : rest = [] ∨ ∃ c t', rest = c :: t' ∧ hexVal c = none := by
    cases rest with
    | nil => exact Or.inl rfl
    | cons c t' =>
      refine Or.inr ⟨c, t', rfl, ?_⟩
      cases hc : hexVal c with
      | none => rfl
      | some a => exact absurd ((hexVal_iff c a).mp hc) (hr c a rfl)
  rw [parseUint_spec hexVal 16 255 (by omega) d rest ht ds (map_hexVal d ds hd)]
  change Option.getD (if 255 < baseVal 16 0 ds then _ else _) 0 = if 255 < baseVal 16 0 ds then _ else if _ then baseVal 16 0 ds else 0
  split
  · rfl
  · split <;> rfl

/-- every text begins with some hexadecimal digits, perhaps none -/
theorem C47_afi_every (afi : Str) : ∃ d rest v, afi = d ++ rest ∧ HexDigits d v ∧
    ∀ c a, rest.head? = some c → ¬ HexDigit c a := by
  have key : ∀ afi : Str, ∃ d rest ds, afi = d ++ rest ∧ AllHex d ds ∧
      ∀ c a, rest.head? = some c → ¬ HexDigit c a := by
    intro afi
    induction afi with
    | nil => exact ⟨[], [], [], rfl, .nil, by simp⟩
    | cons c afi ih =>
      by_cases hc : ∃ a, HexDigit c a
      · obtain ⟨a, hc⟩ := hc
        obtain ⟨d, rest, ds, h1, h2, h3⟩ := ih
        exact ⟨c :: d, rest, a :: ds, by rw [h1]; rfl, .cons hc h2, h3⟩
      · refine ⟨[], c :: afi, [], rfl, .nil, fun e a he hh => hc ⟨a, ?_⟩⟩
        rw [List.head?_cons] at he
        cases he
        exact hh
  obtain ⟨d, rest, ds, h1, h2, h3⟩ := key afi
  exact ⟨d, rest, _, h1, ⟨ds, h2, rfl⟩, h3⟩

/-- Something that is not a hexadecimal number is not always 0. -/
theorem C47_afi_trailing : makeISOPC 80 "1FFz".toList = some [41#8, 255#8] ∧
    makeISOPC 80 "FFz".toList = some [41#8, 0#8] := by decide +kernel

example : HexDigits "a9".toList 169 ∧ (∀ c a, ("" : String).toList.head? = some c → ¬ HexDigit c a) ∧
    (∀ c a, "z".toList.head? = some c → ¬ HexDigit c a) ∧ HexDigits "1FF".toList 511 := by
  refine ⟨⟨[10, 9], .cons (Or.inl rfl) (.cons (Or.inl rfl) .nil), rfl⟩, fun c a hc => by simp at hc, ?_,
    ⟨[1, 15, 15], .cons (Or.inr rfl) (.cons (Or.inr rfl) (.cons (Or.inr rfl) .nil)), rfl⟩⟩
  intro c a hc hh
  have : 'z' = c := by simpa using hc
  subst this
  rw [← hexVal_iff, show hexVal 'z' = none by decide] at hh
  cases hh

/-- When it crashes: the binary digits of the number of words are more than five, and with the three
    bits that follow they do not fill whole bytes. In particular not for every length of 512 bits or
    more. -/
theorem C47_crash_iff (length : Nat) (afi : Str) :
    makeISOPC length afi = none ↔ 512 ≤ length ∧ (Nat.log2 (length / 16) + 4) % 8 ≠ 0 := by
  by_cases h : length < 512
  · obtain ⟨p0, p1, h1, _⟩ := C47_pc length afi h
    rw [h1]; simp; omega
  · have hpos : length / 16 ≠ 0 := by omega
    have hl := binStr_log _ hpos
    have h5 : 5 ≤ Nat.log2 (length / 16) := by
      rw [Nat.le_log2 hpos]; omega
    have hf : fmtBin 5 ((length / 16 : Nat) : Int) = binStr (length / 16) := by
      unfold fmtBin leftPad
      rw [if_neg (by omega), if_neg (by rw [Int.natAbs_natCast, hl]; omega), Int.natAbs_natCast]
      rfl
    have htot : (binStr (length / 16) ++ "001".toList).length = Nat.log2 (length / 16) + 4 := by
      rw [List.length_append, hl]; rfl
    unfold makeISOPC
    rw [hf]
    constructor
    · intro hn
      refine ⟨by omega, fun hmod => ?_⟩
      obtain ⟨b, l, h1, _⟩ := parse_first (binStr (length / 16) ++ "001".toList)
        ((Nat.log2 (length / 16) + 4) / 8) (by omega) ((binStr_numeral _).1.append (by decide))
        (by rw [htot]; omega)
      rw [h1] at hn
      cases hn
    · rintro ⟨_, hmod⟩
      cases e : parseBin (binStr (length / 16) ++ "001".toList) with
      | none => rfl
      | some p =>
        have := parseBin_length _ _ e
        rw [htot] at this
        omega

example : makeISOPC 512 "A9".toList = none ∧ makeISOPC 65536 "A9".toList = some [128#8, 169#8] := by
  decide +kernel

/-- What a longer length gives when it does not crash: the leading eight bits of the number of words,
    so that not even the ISO mark is right. -/
theorem C47_long (length : Nat) (afi : Str) (h : 512 ≤ length) (hm : (Nat.log2 (length / 16) + 4) % 8 = 0) :
    ∃ p0 p1, makeISOPC length afi = some [p0, p1] ∧
      p0.toNat = length / 16 / 2 ^ (Nat.log2 (length / 16) - 7) := by
  have hpos : length / 16 ≠ 0 := by omega
  have hl := binStr_log _ hpos
  have h5 : 5 ≤ Nat.log2 (length / 16) := by
    rw [Nat.le_log2 hpos]; omega
  have hf : fmtBin 5 ((length / 16 : Nat) : Int) = binStr (length / 16) := by
    unfold fmtBin leftPad
    rw [if_neg (by omega), if_neg (by rw [Int.natAbs_natCast, hl]; omega), Int.natAbs_natCast]
    rfl
  have htot : (binStr (length / 16) ++ "001".toList).length = Nat.log2 (length / 16) + 4 := by
    rw [List.length_append, hl]; rfl
  obtain ⟨b, l, h1, h2⟩ := parse_first (binStr (length / 16) ++ "001".toList)
    ((Nat.log2 (length / 16) + 4) / 8) (by omega) ((binStr_numeral _).1.append (by decide))
    (by rw [htot]; omega)
  refine ⟨b, _, by unfold makeISOPC; rw [hf, h1], ?_⟩
  rw [h2, List.take_append_of_le_length (by omega)]
  have hv := (binStr_numeral (length / 16)).2.2.1
  have hsplit := binVal_append ((binStr (length / 16)).take 8) ((binStr (length / 16)).drop 8)
  rw [List.take_append_drop, hv, List.length_drop, hl] at hsplit
  have hlt := binVal_lt ((binStr (length / 16)).drop 8)
  rw [List.length_drop, hl] at hlt
  have he : Nat.log2 (length / 16) + 1 - 8 = Nat.log2 (length / 16) - 7 := by omega
  rw [he] at hsplit hlt
  generalize 2 ^ (Nat.log2 (length / 16) - 7) = q at *
  generalize length / 16 = w at *
  generalize binVal (List.take 8 (binStr w)) = a at *
  generalize binVal (List.drop 8 (binStr w)) = r at *
  rw [hsplit, Nat.mul_comm, Nat.mul_add_div (by omega), Nat.div_eq_of_lt hlt]
  simp

example : (Nat.log2 (65536 / 16) + 4) % 8 = 0 ∧ 65536 / 16 / 2 ^ (Nat.log2 (65536 / 16) - 7) = 128 := by
  decide +kernel

/-! ### C67 -/

theorem IsCode.sixBit {s : Str} (h : IsCode s) : IsSixBit s :=
  fun c hc => (code_char c (h c hc)).2.2

theorem IsCode.append {s t : Str} (h : IsCode s) (h' : IsCode t) : IsCode (s ++ t) := by
  intro c hc
  rcases List.mem_append.mp hc with hc | hc
  · exact h c hc
  · exact h' c hc

theorem IsDigits.code {s : Str} (h : IsDigits s) : IsCode s := fun c hc => Or.inl (h c hc)

theorem leftPad_sixDigits (csn : Str) (h : csn.length ≤ 6) :
    leftPad 6 csn = sixDigits csn ∧ (sixDigits csn).length = 6 ∧
      (IsDigits csn → IsDigits (sixDigits csn)) := by
  refine ⟨?_, ?_, ?_⟩
  · unfold leftPad sixDigits zeroPadding
    split
    · rfl
    · have : csn.length = 6 := by omega
      rw [this]; rfl
  · unfold sixDigits; simp; omega
  · intro hd c hc
    rcases List.mem_append.mp hc with hc | hc
    · rw [(List.mem_replicate.mp hc).2]; decide
    · exact hd c hc

theorem intStr_digit (n : Nat) (h : n < 10) : intStr (n : Int) = [Char.ofNat (48 + n)] := by
  revert n; decide

/-- the text in an ISO 17363 tag -/
theorem make17363 (x : Binutil) (pf : Bool) (oc ei csn : Str) (ho : IsCode oc) (ho3 : oc.length = 3)
    (he : IsCode ei) (he1 : ei.length = 1) (hs : IsDigits csn) (hs0 : csn ≠ []) (hs6 : csn.length ≤ 6) :
    let text := "7B".toList ++ oc ++ ei ++ sixDigits csn ++
      [Char.ofNat (48 + checkDigit (oc ++ ei ++ sixDigits csn))]
    IsSixBit text ∧ text.length = 13 ∧
    x.makeISO17363 pf oc ei csn = if pf then
        some (⟨[], x.sixBits text, "urn:epc:pat:iso17363:".toList ++ "7B".toList ++ ".".toList ++ oc ++
          ".".toList ++ ei ++ ".".toList ++ sixDigits csn⟩, 0)
      else Binutil.packISO (x.sixBits text) := by
  obtain ⟨l1, l2, l3⟩ := leftPad_sixDigits csn hs6
  have hcode : IsCode (oc ++ ei ++ sixDigits csn) := (ho.append he).append (l3 hs).code
  have hten : (oc ++ ei ++ sixDigits csn).length = 10 := by
    rw [List.length_append, List.length_append, ho3, he1, l2]
  obtain ⟨_, hcd, hlt⟩ := C44_check_digit _ hten hcode
  have hd := digit_ofNat (checkDigit (oc ++ ei ++ sixDigits csn)) hlt
  dsimp only
  refine ⟨?_, ?_, ?_⟩
  · refine IsSixBit.append (IsSixBit.append (IsSixBit.append (IsSixBit.append ?_ ho.sixBit) he.sixBit)
      (l3 hs).code.sixBit) ?_
    · decide
    · exact IsCode.sixBit (IsDigits.code fun c hc => by rw [List.mem_singleton.mp hc]; exact hd.1)
  · simp only [List.length_append, ho3, he1, l2]
    rfl
  · have h1 : oc ≠ [] := by intro h; simp [h] at ho3
    have h2 : ei ≠ [] := by intro h; simp [h] at he1
    unfold Binutil.makeISO17363
    simp only [h1, h2, hs0, false_and, if_false, l1]
    rw [if_neg (by omega), hcd]
    dsimp only
    rw [intStr_digit _ hlt]
    simp only [sixBits_append, List.append_assoc]

/-- An ISO 17363 tag made of owner code, equipment and serial number has 80 bits, and with the PC made
    for it its identity is the text 7B, these fields and the check digit. -/
theorem C67_iso17363 (x : Binutil) (hx : x.Ok) (oc ei csn : Str) (ho : IsCode oc) (ho3 : oc.length = 3)
    (he : IsCode ei) (he1 : ei.length = 1) (hs : IsDigits csn) (hs0 : csn ≠ []) (hs6 : csn.length ≤ 6) :
    ∃ id pc, x.makeISO17363 false oc ei csn = some (⟨id, [], []⟩, 80) ∧ id.length = 10 ∧
      makeISOPC 80 "A9".toList = some pc ∧
      translate pc id = some ("urn:epc:id:iso17363:".toList ++ ("7B".toList ++ oc ++ ei ++ sixDigits csn ++
        [Char.ofNat (48 + checkDigit (oc ++ ei ++ sixDigits csn))]), false) := by
  obtain ⟨t1, t2, t3⟩ := make17363 x false oc ei csn ho ho3 he he1 hs hs0 hs6
  generalize "7B".toList ++ oc ++ ei ++ sixDigits csn ++ _ = text at *
  obtain ⟨id, n, k, q1, q2, q3, q4, q5, q6, q7⟩ := packISO_spec x hx text t1.orSpace
    (by intro h; simp [h] at t2)
  have hn : n = 80 := by rw [t2] at q4 q5; omega
  subst hn
  obtain ⟨p0, p1, e1, e2, e3, _⟩ := C47_pc 80 "A9".toList (by omega)
  have h9 : p1.toNat = 169 := by rw [e3]; decide
  refine ⟨id, _, by rw [t3]; exact q1, by omega, e1, ?_⟩
  have := C37_iso p0 p1 id "17363" (by omega) (by omega) (by rw [h9]; rfl)
  rw [this, sixBitText_padded x hx text t1.orSpace k id q6 q7, t1.filter]
  have : "urn:epc:id:iso".toList ++ "17363".toList ++ ":".toList = "urn:epc:id:iso17363:".toList := by
    decide
  rw [this]

example : IsCode "CSQ".toList ∧ IsCode "U".toList ∧ IsDigits "5438".toList ∧
    sixDigits "5438".toList = "005438".toList ∧
    (sampleBinutil.makeISO17363 false "CSQ".toList "U".toList "5438".toList).map
      (fun m => (translate [41#8, 169#8] m.1.id, m.2))
      = some (some ("urn:epc:id:iso17363:7BCSQU0054380".toList, false), 80) := by decide +kernel

/-- An ISO 17365 tag of four texts: with the PC made for its length its identity is their
    concatenation. -/
theorem C67_iso17365 (x : Binutil) (hx : x.Ok) (di iac cin sn : Str) (hd : IsSixBit di)
    (hi : IsSixBit iac) (hi0 : iac ≠ []) (hc : IsSixBit cin) (hc0 : cin ≠ []) (hs : IsSixBit sn)
    (hs0 : sn ≠ []) (hlen : di.length + iac.length + cin.length + sn.length ≤ 82) :
    ∃ id n pc, x.makeISO17365 false di iac cin sn = some (⟨id, [], []⟩, n) ∧ n = 8 * id.length ∧
      makeISOPC n "A2".toList = some pc ∧
      translate pc id = some ("urn:epc:id:iso17365:".toList ++ (di ++ iac ++ cin ++ sn), false) := by
  have hsix := ((hd.append hi).append hc).append hs
  have hm : x.makeISO17365 false di iac cin sn = Binutil.packISO (x.sixBits (di ++ iac ++ cin ++ sn)) := by
    unfold Binutil.makeISO17365
    simp only [hi0, hc0, hs0, false_and, if_false, sixBits_append]
    rfl
  have htl : (di ++ iac ++ cin ++ sn).length = di.length + iac.length + cin.length + sn.length := by
    simp only [List.length_append]
  generalize di ++ iac ++ cin ++ sn = text at *
  obtain ⟨id, n, k, q1, q2, q3, q4, q5, q6, q7⟩ := packISO_spec x hx text hsix.orSpace (by
    intro h
    have := List.length_pos_iff.mpr hi0
    rw [h] at htl; simp at htl; omega)
  obtain ⟨p0, p1, e1, e2, e3, _⟩ := C47_pc n "A2".toList (by omega)
  have h9 : p1.toNat = 162 := by rw [e3]; decide
  refine ⟨id, n, _, by rw [hm]; exact q1, q2, e1, ?_⟩
  have := C37_iso p0 p1 id "17365" (by omega) (by omega) (by rw [h9]; rfl)
  rw [this, sixBitText_padded x hx text hsix.orSpace k id q6 q7, hsix.filter]
  have : "urn:epc:id:iso".toList ++ "17365".toList ++ ":".toList = "urn:epc:id:iso17365:".toList := by
    decide
  rw [this]

example : IsSixBit "25S".toList ∧ IsSixBit "UN".toList ∧ IsSixBit "043325711".toList ∧
    (sampleBinutil.makeISO17365 false "25S".toList "UN".toList "043325711".toList
      "MH8031200000000001".toList).map (fun m => (m.1.id, m.2)) =
    some ([203#8, 84#8, 213#8, 59#8, 13#8, 51#8, 207#8, 45#8, 119#8, 199#8, 19#8, 72#8, 227#8, 12#8,
      241#8, 203#8, 12#8, 48#8, 195#8, 12#8, 48#8, 195#8, 12#8, 49#8], 192) := by decide +kernel

/-! ### C68 -/

theorem make4_filter (x : Binutil) (header : Byte) (hs name : Str) (table : List Row)
    (fv cp ref ser : Str) (hcp : cp ≠ []) (href : ref ≠ []) (hser : ser ≠ []) :
    x.make4 header hs name table true fv [] [] [] = some ⟨[], hs ++ x.getFilter fv,
      "urn:epc:pat:".toList ++ name ++ ":".toList ++ ['.'].intercalate [fv]⟩ ∧
    x.make4 header hs name table true fv cp [] [] = some ⟨[], hs ++ x.getFilter fv ++
      partitionBits (rowFor table cp.length) ++ x.getCompanyPrefix cp (rowFor table cp.length),
      "urn:epc:pat:".toList ++ name ++ ":".toList ++ ['.'].intercalate [fv, cp]⟩ ∧
    x.make4 header hs name table true fv cp ref [] = some ⟨[], hs ++ x.getFilter fv ++
      partitionBits (rowFor table cp.length) ++ x.getCompanyPrefix cp (rowFor table cp.length) ++
      x.getRef ref (rowFor table cp.length),
      "urn:epc:pat:".toList ++ name ++ ":".toList ++ ['.'].intercalate [fv, cp, ref]⟩ ∧
    x.make4 header hs name table true fv cp ref ser = some ⟨[], hs ++ x.getFilter fv ++
      partitionBits (rowFor table cp.length) ++ x.getCompanyPrefix cp (rowFor table cp.length) ++
      x.getRef ref (rowFor table cp.length) ++ x.getSerial ser,
      "urn:epc:pat:".toList ++ name ++ ":".toList ++ ['.'].intercalate [fv, cp, ref, ser]⟩ := by
  have d : ".".toList = ['.'] := rfl
  unfold Binutil.make4
  generalize "urn:epc:pat:".toList = u
  simp only [intercalate_cons₂, List.intercalate_singleton]
  simp only [hcp, href, hser, d, if_true, if_false, false_and, and_self, List.append_assoc,
    List.cons_append, List.nil_append]

theorem make3_filter (x : Binutil) (fv cp ref : Str) (hfv : fv ≠ []) (hcp : cp ≠ []) (href : ref ≠ []) :
    (x.makeSSCC96 true fv [] [] = some ⟨[], "00110001".toList ++ x.getFilter fv,
        Scheme.sscc.patternText [fv]⟩ ∧
      x.makeSSCC96 true fv cp [] = some ⟨[], "00110001".toList ++ x.getFilter fv ++
        partitionBits (rowFor ssccTable cp.length) ++ x.getCompanyPrefix cp (rowFor ssccTable cp.length),
        Scheme.sscc.patternText [fv, cp]⟩ ∧
      x.makeSSCC96 true fv cp ref = some ⟨[], "00110001".toList ++ x.getFilter fv ++
        partitionBits (rowFor ssccTable cp.length) ++ x.getCompanyPrefix cp (rowFor ssccTable cp.length) ++
        x.getRef ref (rowFor ssccTable cp.length), Scheme.sscc.patternText [fv, cp, ref]⟩) ∧
    (x.makeGIAI96 true fv [] [] = some ⟨[], "00110100".toList ++ x.getFilter fv,
        Scheme.giai.patternText [fv]⟩ ∧
      x.makeGIAI96 true fv cp [] = some ⟨[], "00110100".toList ++ x.getFilter fv ++
        partitionBits (rowFor giaiTable cp.length) ++ x.getCompanyPrefix cp (rowFor giaiTable cp.length),
        Scheme.giai.patternText [fv, cp]⟩ ∧
      x.makeGIAI96 true fv cp ref = some ⟨[], "00110100".toList ++ x.getFilter fv ++
        partitionBits (rowFor giaiTable cp.length) ++ x.getCompanyPrefix cp (rowFor giaiTable cp.length) ++
        x.getRef ref (rowFor giaiTable cp.length), Scheme.giai.patternText [fv, cp, ref]⟩) := by
  have d : ".".toList = ['.'] := rfl
  have e1 : "urn:epc:pat:giai-96:".toList
      = "urn:epc:pat:".toList ++ Scheme.giai.typeName ++ ":".toList := by decide
  have e2 : "urn:epc:pat:sscc-96:".toList
      = "urn:epc:pat:".toList ++ Scheme.sscc.typeName ++ ":".toList := by decide
  unfold Binutil.makeSSCC96 Binutil.makeGIAI96 Scheme.patternText
  rw [e1, e2]
  generalize "urn:epc:pat:".toList ++ Scheme.giai.typeName ++ ":".toList = u
  generalize "urn:epc:pat:".toList ++ Scheme.sscc.typeName ++ ":".toList = v
  generalize "00110001".toList = h1
  generalize "00110100".toList = h2
  simp only [intercalate_cons₂, List.intercalate_singleton]
  simp only [hfv, hcp, href, d, if_true, if_false, false_and, and_self, List.append_assoc,
    List.cons_append, List.nil_append]

/-- Asked for a filter, the EPC functions return the pattern of the given fields and the filter string
    that the pattern is encoded to. -/
theorem C68_epc (x : Binutil) (sc : Scheme) (fields : List Str) (h1 : fields ≠ [])
    (h4 : fields.length ≤ if sc.hasSerial then 4 else 3) (hf : ∀ f ∈ fields, f ≠ []) :
    ∃ s, x.encoder sc.typeName fields = some s ∧
      sc.makeFilter x fields = some ⟨[], s, sc.patternText fields⟩ := by
  have hs : fields.length = 4 → sc.hasSerial := by
    intro h
    apply Classical.byContradiction
    intro hs
    rw [if_neg hs] at h4
    omega
  have ne : ['0'] ≠ [] := by decide
  match fields, h1, h4, hf, hs with
  | [fv], _, _, hf, _ =>
    refine ⟨_, (encoder_pieces x sc fv [] [] []).1, ?_⟩
    have hfv : fv ≠ [] := hf fv (by simp)
    cases sc with
    | sgtin => exact (make4_filter x 0x30#8 _ _ sgtinTable fv _ _ _ ne ne ne).1
    | sscc => exact (make3_filter x fv _ _ hfv ne ne).1.1
    | grai => exact (make4_filter x 0x33#8 _ _ graiTable fv _ _ _ ne ne ne).1
    | giai => exact (make3_filter x fv _ _ hfv ne ne).2.1
  | [fv, cp], _, _, hf, _ =>
    refine ⟨_, (encoder_pieces x sc fv cp [] []).2.1, ?_⟩
    have hfv : fv ≠ [] := hf fv (by simp)
    have hcp : cp ≠ [] := hf cp (by simp)
    cases sc with
    | sgtin => exact (make4_filter x 0x30#8 _ _ sgtinTable fv cp _ _ hcp ne ne).2.1
    | sscc => exact (make3_filter x fv cp _ hfv hcp ne).1.2.1
    | grai => exact (make4_filter x 0x33#8 _ _ graiTable fv cp _ _ hcp ne ne).2.1
    | giai => exact (make3_filter x fv cp _ hfv hcp ne).2.2.1
  | [fv, cp, ref], _, _, hf, _ =>
    refine ⟨_, (encoder_pieces x sc fv cp ref []).2.2.1, ?_⟩
    have hfv : fv ≠ [] := hf fv (by simp)
    have hcp : cp ≠ [] := hf cp (by simp)
    have hr : ref ≠ [] := hf ref (by simp)
    cases sc with
    | sgtin => exact (make4_filter x 0x30#8 _ _ sgtinTable fv cp ref _ hcp hr ne).2.2.1
    | sscc => exact (make3_filter x fv cp ref hfv hcp hr).1.2.2
    | grai => exact (make4_filter x 0x33#8 _ _ graiTable fv cp ref _ hcp hr ne).2.2.1
    | giai => exact (make3_filter x fv cp ref hfv hcp hr).2.2.2
  | [fv, cp, ref, ser], _, _, hf, hs =>
    refine ⟨_, (encoder_pieces x sc fv cp ref ser).2.2.2 (hs rfl), ?_⟩
    have hcp : cp ≠ [] := hf cp (by simp)
    have hr : ref ≠ [] := hf ref (by simp)
    have hser : ser ≠ [] := hf ser (by simp)
    cases sc with
    | sgtin => exact (make4_filter x 0x30#8 _ _ sgtinTable fv cp ref ser hcp hr hser).2.2.2
    | sscc => exact (hs rfl).elim
    | grai => exact (make4_filter x 0x33#8 _ _ graiTable fv cp ref ser hcp hr hser).2.2.2
    | giai => exact (hs rfl).elim
  | _ :: _ :: _ :: _ :: _ :: _, _, h4, _, _ =>
    simp only [List.length_cons] at h4
    split at h4 <;> omega

example : Scheme.sgtin.makeFilter sampleBinutil ["3".toList, "0614141".toList] =
    some ⟨[], "00110000011101000010010101111011111101".toList,
      "urn:epc:pat:sgtin-96:3.0614141".toList⟩ := by decide +kernel

/-- An empty filter value is drawn at random for the filter; only the GIAI pattern tells which. -/
theorem C68_empty_filter_value :
    Scheme.sgtin.makeFilter sampleBinutil [[]] =
      some ⟨[], "00110000111".toList, "urn:epc:pat:sgtin-96:".toList⟩ ∧
    Scheme.giai.makeFilter sampleBinutil [[]] =
      some ⟨[], "00110100111".toList, "urn:epc:pat:giai-96:7".toList⟩ := by decide +kernel

/-- Likewise ISO 17365. -/
theorem C68_iso17365 (x : Binutil) (di iac cin sn : Str) (hi : iac ≠ []) (hc : cin ≠ []) (hs : sn ≠ []) :
    let t := "iso17365".toList
    let pat := fun fields : List Str => "urn:epc:pat:iso17365:".toList ++ ['.'].intercalate fields
    (∃ s, x.encoder t [di] = some s ∧ x.makeISO17365 true di [] [] [] = some (⟨[], s, pat [di]⟩, 0)) ∧
    (∃ s, x.encoder t [di, iac] = some s ∧
      x.makeISO17365 true di iac [] [] = some (⟨[], s, pat [di, iac]⟩, 0)) ∧
    (∃ s, x.encoder t [di, iac, cin] = some s ∧
      x.makeISO17365 true di iac cin [] = some (⟨[], s, pat [di, iac, cin]⟩, 0)) ∧
    (∃ s, x.encoder t [di, iac, cin, sn] = some s ∧
      x.makeISO17365 true di iac cin sn = some (⟨[], s, pat [di, iac, cin, sn]⟩, 0)) := by
  have d : ".".toList = ['.'] := rfl
  dsimp only
  refine ⟨⟨_, rfl, ?_⟩, ⟨_, rfl, ?_⟩, ⟨_, rfl, ?_⟩, ⟨_, rfl, ?_⟩⟩ <;>
  · unfold Binutil.makeISO17365
    generalize "urn:epc:pat:iso17365:".toList = u
    simp only [intercalate_cons₂, List.intercalate_singleton, hi, hc, hs, d, if_true, if_false,
      false_and, and_self, List.append_assoc, List.cons_append, List.nil_append]

example : sampleBinutil.makeISO17365 true "25S".toList "UN".toList [] [] =
    some (⟨[], "110010110101010011010101001110".toList, "urn:epc:pat:iso17365:25S.UN".toList⟩, 0) := by
  decide +kernel

/-- For ISO 17363 they agree up to three fields. -/
theorem C68_iso17363 (x : Binutil) (oc ei : Str) (ho : oc ≠ []) (he : ei ≠ []) :
    let t := "iso17363".toList
    let pat := fun fields : List Str => "urn:epc:pat:iso17363:".toList ++ ['.'].intercalate fields
    (∃ s, x.encoder t ["7B".toList] = some s ∧
      x.makeISO17363 true [] [] [] = some (⟨[], s, pat ["7B".toList]⟩, 0)) ∧
    (∃ s, x.encoder t ["7B".toList, oc] = some s ∧
      x.makeISO17363 true oc [] [] = some (⟨[], s, pat ["7B".toList, oc]⟩, 0)) ∧
    (∃ s, x.encoder t ["7B".toList, oc, ei] = some s ∧
      x.makeISO17363 true oc ei [] = some (⟨[], s, pat ["7B".toList, oc, ei]⟩, 0)) := by
  have d : ".".toList = ['.'] := rfl
  dsimp only
  refine ⟨⟨_, rfl, ?_⟩, ⟨_, rfl, ?_⟩, ⟨_, rfl, ?_⟩⟩ <;>
  · unfold Binutil.makeISO17363
    generalize "urn:epc:pat:iso17363:".toList = u
    generalize "7B".toList = b
    simp only [intercalate_cons₂, List.intercalate_singleton, ho, he, d, if_true, if_false,
      false_and, and_self, List.append_assoc, List.cons_append, List.nil_append]

/-- With all four fields the filter matches the tags made of the same fields, and no other tag made of
    such fields; the pattern returned with it, however, is one that encoding rejects (C45). -/
theorem C68_iso17363_full (x : Binutil) (hx : x.Ok) (oc ei csn oc' ei' csn' : Str)
    (ho : IsCode oc) (ho3 : oc.length = 3) (he : IsCode ei) (he1 : ei.length = 1) (hs : IsDigits csn)
    (hs0 : csn ≠ []) (hs6 : csn.length ≤ 6)
    (ho' : IsCode oc') (ho3' : oc'.length = 3) (he' : IsCode ei') (he1' : ei'.length = 1)
    (hs' : IsDigits csn') (hs0' : csn' ≠ []) (hs6' : csn'.length ≤ 6) :
    ∃ s id pat, x.makeISO17363 true oc ei csn = some (⟨[], s, pat⟩, 0) ∧
      x.makeISO17363 false oc' ei' csn' = some (⟨id, [], []⟩, 80) ∧
      ((newFilter s 0).matchID id = some true ↔ oc' = oc ∧ ei' = ei ∧ sixDigits csn' = sixDigits csn) ∧
      x.encoder "iso17363".toList ["7B".toList, oc, ei, sixDigits csn] = none := by
  obtain ⟨a1, a2, a3⟩ := make17363 x true oc ei csn ho ho3 he he1 hs hs0 hs6
  obtain ⟨b1, b2, b3⟩ := make17363 x false oc' ei' csn' ho' ho3' he' he1' hs' hs0' hs6'
  have hl := (leftPad_sixDigits csn hs6).2.1
  have hl' := (leftPad_sixDigits csn' hs6').2.1
  have htext : "7B".toList ++ oc' ++ ei' ++ sixDigits csn' ++
      [Char.ofNat (48 + checkDigit (oc' ++ ei' ++ sixDigits csn'))] = "7B".toList ++ oc ++ ei ++
        sixDigits csn ++ [Char.ofNat (48 + checkDigit (oc ++ ei ++ sixDigits csn))] ↔
      oc' = oc ∧ ei' = ei ∧ sixDigits csn' = sixDigits csn := by
    constructor
    · intro h
      have h := (List.append_inj h (by simp only [List.length_append, ho3, ho3', he1, he1', hl, hl'])).1
      obtain ⟨h, h3⟩ := List.append_inj h (by simp only [List.length_append, ho3, ho3', he1, he1'])
      obtain ⟨h, h2⟩ := List.append_inj h (by simp only [List.length_append, ho3, ho3'])
      exact ⟨List.append_cancel_left h, h2, h3⟩
    · rintro ⟨rfl, rfl, h⟩
      rw [h]
  rw [← htext]
  generalize "7B".toList ++ oc ++ ei ++ sixDigits csn ++ _ = text at *
  generalize "7B".toList ++ oc' ++ ei' ++ sixDigits csn' ++ _ = text' at *
  obtain ⟨id, n, k, q1, q2, q3, q4, q5, q6, q7⟩ := packISO_spec x hx text' b1.orSpace
    (by intro h; simp [h] at b2)
  have hn : n = 80 := by rw [b2] at q4 q5; omega
  subst hn
  refine ⟨_, id, _, by rw [a3]; rfl, by rw [b3]; exact q1, ?_, C45_full_rejected x _ _ _ _ rfl ho3⟩
  obtain ⟨f1, f2⟩ := sixBits_bits x hx text a1.orSpace
  rw [(C01_match_iff_carries _ f1.filterStr 0 id ⟨by rw [f2, a2]; omega, by omega⟩).1]
  rw [carries_append] at q7
  constructor
  · intro hc
    apply List.ext_getElem?
    intro i
    by_cases hi : i < 13
    · have e1 : text[i]? = some text[i] := List.getElem?_eq_getElem (by omega)
      have e2 : text'[i]? = some text'[i] := List.getElem?_eq_getElem (by omega)
      have v1 := sixBits_fields x hx text a1.orSpace 0 id hc i _ e1
      have v2 := sixBits_fields x hx text' b1.orSpace 0 id q7.1 i _ e2
      have r1 := a1 _ (List.mem_of_getElem? e1)
      have r2 := b1 _ (List.mem_of_getElem? e2)
      have : text'[i].toNat = text[i].toNat := by omega
      rw [e1, e2]
      congr 1
      rw [← Char.ofNat_toNat text'[i], this, Char.ofNat_toNat]
    · rw [List.getElem?_eq_none (by omega), List.getElem?_eq_none (by omega)]
  · rintro rfl
    exact q7.1

example : (sampleBinutil.makeISO17363 true "CSQ".toList "U".toList "305438".toList) =
    some (⟨[], "110111000010000011010011010001010101110011110000110101110100110011111000110011".toList,
      "urn:epc:pat:iso17363:7B.CSQ.U.305438".toList⟩, 0) := by decide +kernel

end Gosstrak
