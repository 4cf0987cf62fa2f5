import Verif.Proofs.Filter

/-! Properties of filter objects: C01 – C05 and C08. -/
namespace Gosstrak

/-! ## C01 -/

/-- C01: a filter built from a string over {0,1,x} matches a covering ID iff the ID carries exactly
    the non-wildcard bits of the string at the offset; it never panics there. -/
theorem C01_match_iff_carries (s : Str) (hs : IsFilterStr s) (o : Nat) (id : List Byte)
    (hc : Covers s o id) :
    ((newFilter s o).matchID id = some true ↔ Carries s o id) ∧
    ((newFilter s o).matchID id = some false ↔ ¬ Carries s o id) := by
  obtain ⟨r, h1, h2⟩ := matchID_newFilter hs hc
  rw [h1]
  cases r <;> simp_all

-- test: a 10-bit filter at offset 3 straddling two bytes
example : (newFilter "01x1100110".toList 3).matchID [0b11101011#8, 0b00110111#8] = some true ∧
    IsFilterStr "01x1100110".toList ∧
    Covers "01x1100110".toList 3 [0b11101011#8, 0b00110111#8] := by decide +kernel

/-- C01, "bits outside the filter never matter": two covering IDs that agree on the bits of the
    window get the same answer. -/
theorem C01_only_window_matters (s : Str) (hs : IsFilterStr s) (o : Nat) (id id' : List Byte)
    (hc : Covers s o id) (hc' : Covers s o id')
    (h : ∀ i, i < s.length → idBit id (o + i) = idBit id' (o + i)) :
    (newFilter s o).matchID id = (newFilter s o).matchID id' := by
  obtain ⟨r, h1, h2⟩ := matchID_newFilter hs hc
  obtain ⟨r', h1', h2'⟩ := matchID_newFilter hs hc'
  have : Carries s o id ↔ Carries s o id' := by
    constructor
    · intro g i c hi hx
      have hl := (List.getElem?_eq_some_iff.mp hi).1
      rw [← h i hl]; exact g i c hi hx
    · intro g i c hi hx
      have hl := (List.getElem?_eq_some_iff.mp hi).1
      rw [h i hl]; exact g i c hi hx
  rw [h1, h1', Option.some.injEq, Bool.eq_iff_iff, h2, h2', this]

example : ∀ i, i < "110".toList.length →
    idBit [0b11011011#8] (3 + i) = idBit [0b00011000#8] (3 + i) := by decide

/-! ## C02 -/

/-- the bits of the filter that lie inside the ID agree with it -/
def CarriesPresent (s : Str) (o : Nat) (id : List Byte) : Prop :=
  ∀ i c, s[i]? = some c → c ≠ 'x' → o + i < 8 * id.length → (c = '1' ↔ idBit id (o + i) = true)

/-- C02, exact behaviour on a short ID: a panic iff the part that is present agrees, else false. -/
theorem C02_short_id_exact (s : Str) (hs : IsFilterStr s) (o : Nat) (id : List Byte)
    (hc : ¬ Covers s o id) :
    ((newFilter s o).matchID id = none ↔ CarriesPresent s o id) ∧
    ((newFilter s o).matchID id = some false ↔ ¬ CarriesPresent s o id) := by
  obtain ⟨-, -, -, hbo, hsz, hlf, hlm, -, -⟩ := newFilter_spec hs o
  have hcb := not_covers_bytes hc
  have hpos := filterBytes_pos (o % 8) s.length
  have hge := filterBytes_ge (o % 8) s.length
  have h := matchLoop_short (f := newFilter s o) (id := id)
    (filterBytes (o % 8) s.length) 0 (by omega) (by omega) (by omega)
  have key : (newFilter s o).matchID id = none ↔ CarriesPresent s o id := by
    unfold FilterObject.matchID
    rw [hsz, h.2, hbo]
    constructor
    · rintro ⟨-, g⟩ i c hi hx hin
      have hl := (List.getElem?_eq_some_iff.mp hi).1
      have hk : (o % 8 + i) / 8 < filterBytes (o % 8) s.length := by omega
      exact (byteOk_newFilter_iff hs o id hk).mp (g _ (Nat.zero_le _) (by omega)) i c hi hx rfl
    · intro g
      refine ⟨by omega, fun k _ hk => ?_⟩
      have hk' : k < filterBytes (o % 8) s.length := by omega
      refine (byteOk_newFilter_iff hs o id hk').mpr fun i c hi hx hik => ?_
      exact g i c hi hx (by omega)
  refine ⟨key, ?_⟩
  have h1 := h.1
  have e : (newFilter s o).matchID id
      = (newFilter s o).matchLoop id 0 (filterBytes (o % 8) s.length) := by
    unfold FilterObject.matchID; rw [hsz]
  rw [← e] at h1
  rw [← key]
  rcases h1 with h1 | h1 | h1
  · simp [h1]
  · simp [h1]
  · omega

example : ¬ Covers "001100001".toList 0 [0x30#8] ∧
    (newFilter "001100001".toList 0).matchID [0x30#8] = none ∧
    (newFilter "001100001".toList 0).matchID [0x31#8] = some false := by decide +kernel

/-- C02, the wished property ("a short ID is a non-match") is false of the code. -/
theorem C02_short_id_not_always_false :
    ¬ ∀ (s : Str) (o : Nat) (id : List Byte), IsFilterStr s → ¬ Covers s o id →
      (newFilter s o).matchID id = some false := by
  intro h
  have := h "001100001".toList 0 [0x30#8] (by decide) (by decide)
  revert this
  decide +kernel

/-- C02: a short ID is reported as a non-match when one of its bits disagrees. -/
theorem C02_short_id_disagreeing (s : Str) (hs : IsFilterStr s) (o : Nat) (id : List Byte)
    (hc : ¬ Covers s o id) (i : Nat) (c : Char) (hi : s[i]? = some c) (hx : c ≠ 'x')
    (hin : o + i < 8 * id.length) (hd : ¬ (c = '1' ↔ idBit id (o + i) = true)) :
    (newFilter s o).matchID id = some false :=
  (C02_short_id_exact s hs o id hc).2.mpr fun h => hd (h i c hi hx hin)

/-! ## C03 -/

/-- C03: a filter is transparent iff its string has only wildcards. -/
theorem C03_transparent_iff_wildcards (s : Str) (hs : IsFilterStr s) (o : Nat) :
    (newFilter s o).isTransparent = true ↔ ∀ c ∈ s, c = 'x' := by
  obtain ⟨-, -, -, hbo, hsz, hlf, hlm, hf, hm⟩ := newFilter_spec hs o
  have hge := filterBytes_ge (o % 8) s.length
  have ones : ∀ (l : List Byte) (n : Nat), l.length = n →
      (l = List.replicate n 255#8 ↔ ∀ j, j < 8 * n → idBit l j = true) := by
    intro l n hl
    constructor
    · rintro rfl j hj
      unfold idBit
      rw [List.getElem?_replicate, if_pos (by omega)]
      have : ∀ k, k < 8 → (255#8).getMsbD k = true := by decide
      exact this _ (by omega)
    · intro h
      apply List.ext_getElem
      · simpa using hl
      · intro i h1 h2
        rw [List.getElem_replicate]
        apply (byte_eq_iff _ _).mpr
        intro j hj
        rw [← idBit_byte (List.getElem?_eq_getElem h1) hj, h _ (by omega)]
        have : ∀ k, k < 8 → (255#8).getMsbD k = true := by decide
        exact (this _ hj).symm
  unfold FilterObject.isTransparent
  simp only [Bool.and_eq_true, decide_eq_true_eq, hsz]
  rw [ones _ _ hlf, ones _ _ hlm]
  simp only [hf, hm, decide_eq_true_eq]
  constructor
  · rintro ⟨-, h⟩ c hc
    obtain ⟨i, hi, rfl⟩ := List.mem_iff_getElem.mp hc
    have := h (o % 8 + i) (by omega)
    rw [maskRunes_getElem?] at this
    have e3 : o % 8 + i - o % 8 = i := by omega
    simp only [show ¬ (o % 8 + i < o % 8) by omega, if_false, e3, hi, dite_true] at this
    unfold xMask at this
    by_cases hx : s[i] = 'x'
    · exact hx
    · simp [hx] at this
  · intro h
    constructor
    · intro j hj
      rw [filterRunes_getElem?]
      by_cases h1 : j < o % 8
      · simp [h1]
      · by_cases h2 : j - o % 8 < s.length
        · simp [h1, h2, xToOne, h _ (List.getElem_mem h2)]
        · simp [h1, h2, hj]
    · intro j hj
      rw [maskRunes_getElem?]
      by_cases h1 : j < o % 8
      · simp [h1]
      · by_cases h2 : j - o % 8 < s.length
        · simp [h1, h2, xMask, h _ (List.getElem_mem h2)]
        · simp [h1, h2, hj]

/-- C03: a filter is transparent iff it matches every covering ID. -/
theorem C03_transparent_iff_matches_all (s : Str) (hs : IsFilterStr s) (o : Nat) :
    (newFilter s o).isTransparent = true ↔
      ∀ id, Covers s o id → (newFilter s o).matchID id = some true := by
  rw [C03_transparent_iff_wildcards s hs o]
  constructor
  · intro h id hc
    rw [(C01_match_iff_carries s hs o id hc).1]
    intro i c hi hx
    exact absurd (h c (List.mem_of_getElem? hi)) hx
  · intro h c hcm
    by_cases hx : c = 'x'
    · exact hx
    obtain ⟨i, hi, rfl⟩ := List.mem_iff_getElem.mp hcm
    -- an ID of all ones and an ID of all zeros
    have cov : ∀ b : Byte, Covers s o (List.replicate (o + s.length) b) := by
      intro b; constructor
      · simp; omega
      · simp; omega
    have bitAt : ∀ (b : Byte) (v : Bool), (∀ k, k < 8 → b.getMsbD k = v) →
        idBit (List.replicate (o + s.length) b) (o + i) = v := by
      intro b v hb
      unfold idBit
      rw [List.getElem?_replicate, if_pos (by omega)]
      exact hb _ (by omega)
    have h1 := (C01_match_iff_carries s hs o _ (cov 255#8)).1.mp (h _ (cov 255#8)) i _
      (List.getElem?_eq_getElem hi) hx
    have h0 := (C01_match_iff_carries s hs o _ (cov 0#8)).1.mp (h _ (cov 0#8)) i _
      (List.getElem?_eq_getElem hi) hx
    rw [bitAt 255#8 true (by decide)] at h1
    rw [bitAt 0#8 false (by decide)] at h0
    simp_all

example : (newFilter "xxx".toList 5).isTransparent = true ∧
    (newFilter "xx1".toList 5).isTransparent = false ∧
    (newFilter [] 3).isTransparent = true ∧
    IsFilterStr "xxx".toList ∧ IsFilterStr "xx1".toList := by decide +kernel

/-! ## C04 -/

/-- C04: a non-empty filter has a byte at `bo` iff one of its bits lies in byte `bo` of the ID. -/
theorem C04_hasByteAt_iff (s : Str) (hs : IsFilterStr s) (hne : s ≠ []) (o bo : Nat) :
    (newFilter s o).hasByteAt bo = true ↔ ∃ i, i < s.length ∧ (o + i) / 8 = bo := by
  obtain ⟨-, -, -, hbo, hsz, -, -, -, -⟩ := newFilter_spec hs o
  have hpos : 0 < s.length := List.length_pos_iff.mpr hne
  unfold FilterObject.hasByteAt
  rw [hbo, hsz]
  have key : (o / 8 ≤ bo ∧ bo < o / 8 + filterBytes (o % 8) s.length) ↔
      ∃ i, i < s.length ∧ (o + i) / 8 = bo := by
    unfold filterBytes
    constructor
    · rintro ⟨h1, h2⟩
      by_cases h0 : bo = o / 8
      · exact ⟨0, hpos, by omega⟩
      · refine ⟨8 * bo - o, ?_, ?_⟩
        · split at h2 <;> omega
        · omega
    · rintro ⟨i, hi, rfl⟩
      refine ⟨by omega, ?_⟩
      split <;> omega
  rw [← key]
  split
  · simp; omega
  · split
    · simp; omega
    · simp; omega

/-- C04: `GetByteAt` never panics and errs exactly where `HasByteAt` is false. -/
theorem C04_getByteAt_iff_hasByteAt (s : Str) (hs : IsFilterStr s) (o bo : Nat) :
    ((newFilter s o).hasByteAt bo = false ∧ (newFilter s o).getByteAt bo = some none) ∨
    ((newFilter s o).hasByteAt bo = true ∧
      ∃ v m, (newFilter s o).getByteAt bo = some (some (v, m)) ∧
        ∀ j, j < 8 →
          v.getMsbD j = decide (∀ c, s[8 * bo + j - o]? = some c → o ≤ 8 * bo + j → c ≠ '0') ∧
          m.getMsbD j = decide (∀ c, s[8 * bo + j - o]? = some c → o ≤ 8 * bo + j → c = 'x')) := by
  obtain ⟨-, -, -, hbo, hsz, hlf, hlm, hf, hm⟩ := newFilter_spec hs o
  have hge := filterBytes_ge (o % 8) s.length
  cases hb : (newFilter s o).hasByteAt bo
  · left
    refine ⟨rfl, ?_⟩
    unfold FilterObject.getByteAt
    rw [hb]; rfl
  · right
    refine ⟨rfl, ?_⟩
    have hr : o / 8 ≤ bo ∧ bo < o / 8 + filterBytes (o % 8) s.length := by
      unfold FilterObject.hasByteAt at hb
      rw [hbo, hsz] at hb
      split at hb
      · simp at hb
      · split at hb
        · simp at hb
        · omega
    have hi1 : bo - o / 8 < (newFilter s o).byteFilter.length := by omega
    have hi2 : bo - o / 8 < (newFilter s o).byteMask.length := by omega
    refine ⟨(newFilter s o).byteFilter[bo - o / 8], (newFilter s o).byteMask[bo - o / 8], ?_, ?_⟩
    · unfold FilterObject.getByteAt
      rw [hb, if_pos rfl, getByteAtLoop_eq _ _ (by omega) (by omega), hbo,
        List.getElem?_eq_getElem hi1, List.getElem?_eq_getElem hi2]
    · intro j hj
      rw [← idBit_byte (List.getElem?_eq_getElem hi1) hj,
        ← idBit_byte (List.getElem?_eq_getElem hi2) hj, hf, hm, filterRunes_getElem?,
        maskRunes_getElem?]
      by_cases h1 : 8 * (bo - o / 8) + j < o % 8
      · have : ¬ (o ≤ 8 * bo + j) := by omega
        simp [h1, this]
      · have hle : o ≤ 8 * bo + j := by omega
        have e : 8 * (bo - o / 8) + j - o % 8 = 8 * bo + j - o := by omega
        simp only [h1, if_false, e, hle, forall_const]
        by_cases h2 : 8 * bo + j - o < s.length
        · simp only [h2, dite_true, List.getElem?_eq_getElem h2, Option.some.injEq,
            forall_eq']
          have hcs := hs _ (List.getElem_mem h2)
          unfold xToOne xMask
          rcases hcs with h | h | h <;> simp [h]
        · have h3 : 8 * (bo - o / 8) + j < 8 * filterBytes (o % 8) s.length := by omega
          simp [h2, h3]

/-- C04: `Match` is the conjunction of the byte tests that `GetByteAt` reports. -/
theorem C04_match_iff_bytes (s : Str) (hs : IsFilterStr s) (o : Nat) (id : List Byte)
    (hc : Covers s o id) :
    (newFilter s o).matchID id = some true ↔
      ∀ bo v m b, (newFilter s o).getByteAt bo = some (some (v, m)) → id[bo]? = some b →
        b ||| m = v := by
  obtain ⟨-, -, -, hbo, hsz, hlf, hlm, hf, hm⟩ := newFilter_spec hs o
  have hcb := covers_bytes hc
  have xor0 : ∀ b m v : Byte, (b ||| m) ^^^ v = 0#8 ↔ b ||| m = v := by
    intro b m v; exact BitVec.xor_eq_zero_iff
  rw [(C01_match_iff_carries s hs o id hc).1, ← allBytesOk_iff hs o id]
  constructor
  · intro h bo v m b hg hb
    unfold FilterObject.getByteAt at hg
    split at hg
    · rename_i hh
      have hr : o / 8 ≤ bo ∧ bo < o / 8 + filterBytes (o % 8) s.length := by
        unfold FilterObject.hasByteAt at hh
        rw [hbo, hsz] at hh
        split at hh
        · simp at hh
        · split at hh
          · simp at hh
          · omega
      rw [getByteAtLoop_eq _ _ (by omega) (by omega), hbo] at hg
      have hi1 : bo - o / 8 < (newFilter s o).byteFilter.length := by omega
      have hi2 : bo - o / 8 < (newFilter s o).byteMask.length := by omega
      rw [List.getElem?_eq_getElem hi1, List.getElem?_eq_getElem hi2] at hg
      simp only [Option.some.injEq, Prod.mk.injEq] at hg
      obtain ⟨rfl, rfl⟩ := hg
      have hk := h (bo - o / 8) (by omega)
      have e : (newFilter s o).byteOffset + (bo - o / 8) = bo := by omega
      rw [byteOk_iff (by rw [e]; exact hb) (List.getElem?_eq_getElem hi2)
        (List.getElem?_eq_getElem hi1)] at hk
      exact (xor0 _ _ _).mp hk
    · simp at hg
  · intro h k hk
    have hi1 : k < (newFilter s o).byteFilter.length := by omega
    have hi2 : k < (newFilter s o).byteMask.length := by omega
    have hi3 : (newFilter s o).byteOffset + k < id.length := by omega
    rw [byteOk_iff (List.getElem?_eq_getElem hi3) (List.getElem?_eq_getElem hi2)
      (List.getElem?_eq_getElem hi1), xor0]
    refine h ((newFilter s o).byteOffset + k) _ _ _ ?_ (List.getElem?_eq_getElem hi3)
    have hh : (newFilter s o).hasByteAt ((newFilter s o).byteOffset + k) = true := by
      unfold FilterObject.hasByteAt
      rw [if_neg (by omega), if_neg (by omega)]
    unfold FilterObject.getByteAt
    rw [hh, if_pos rfl, getByteAtLoop_eq _ _ (by omega) (by omega), Nat.add_sub_cancel_left,
      List.getElem?_eq_getElem hi1, List.getElem?_eq_getElem hi2]

example : (newFilter "01x1100110".toList 11).getByteAt 1 = some (some (0b11101111#8, 0b11100100#8)) ∧
    (newFilter "01x1100110".toList 11).getByteAt 2 = some (some (0b00110111#8, 0b00000111#8)) ∧
    (newFilter "01x1100110".toList 11).getByteAt 3 = some none ∧
    (newFilter "01x1100110".toList 11).hasByteAt 0 = false ∧
    Covers "01x1100110".toList 11 [1#8, 2#8, 3#8] := by decide +kernel

/-! ## C05 -/

/-- C05: a filter for `s ++ t` matches iff the filters for the two parts match. -/
theorem C05_split (s t : Str) (hs : IsFilterStr s) (ht : IsFilterStr t) (o : Nat) (id : List Byte)
    (hc : Covers (s ++ t) o id) (hc2 : Covers t (o + s.length) id) :
    (newFilter (s ++ t) o).matchID id = some true ↔
      (newFilter s o).matchID id = some true ∧
      (newFilter t (o + s.length)).matchID id = some true := by
  have hst : IsFilterStr (s ++ t) := by
    intro c hc
    rcases List.mem_append.mp hc with h | h
    · exact hs c h
    · exact ht c h
  have hc1 : Covers s o id := ⟨by have := hc.1; simp at this; omega, hc.2⟩
  rw [(C01_match_iff_carries _ hst _ _ hc).1, (C01_match_iff_carries _ hs _ _ hc1).1,
    (C01_match_iff_carries _ ht _ _ hc2).1]
  exact carries_append s t o id

example : (newFilter ("0011".toList ++ "0000011".toList) 0).matchID [0x30#8, 0x7f#8] = some true ∧
    Covers ("0011".toList ++ "0000011".toList) 0 [0x30#8, 0x7f#8] ∧
    Covers "0000011".toList (0 + "0011".toList.length) [0x30#8, 0x7f#8] := by decide +kernel

/-! ## C08 -/

/-- C08: the next-bit lookup. -/
theorem C08_getNextBit (id : List Byte) (n : Nat) :
    (getNextBit id n = some '1' ↔ n < 8 * id.length ∧ idBit id n = true) ∧
    (getNextBit id n = some '0' ↔ n < 8 * id.length ∧ idBit id n = false) ∧
    (getNextBit id n = some 'x' ↔ n = 8 * id.length) ∧
    (getNextBit id n = none ↔ n > 8 * id.length) := by
  unfold getNextBit
  simp only
  by_cases h0 : id.length = n / 8 ∧ n % 8 = 0
  · rw [if_pos h0]
    have h8 : n = 8 * id.length := by omega
    have : ¬ (n < 8 * id.length) := by omega
    have h9 : ¬ (n > 8 * id.length) := by omega
    simp [h8]
  · rw [if_neg h0]
    by_cases h1 : n / 8 < id.length
    · rw [List.getElem?_eq_getElem h1]
      have hb := byte_shift_mod id[n / 8] (n % 8) (by omega)
      have hi : idBit id n = id[n / 8].getMsbD (n % 8) := by
        unfold idBit; rw [List.getElem?_eq_getElem h1]
      have a1 : n < 8 * id.length := by omega
      have a2 : ¬ (n = 8 * id.length) := by omega
      have a3 : ¬ (n > 8 * id.length) := by omega
      simp only [hi, hb]
      cases hg : id[n / 8].getMsbD (n % 8) <;> simp [a1, a2] <;> omega
    · rw [List.getElem?_eq_none (by omega)]
      have a1 : ¬ (n < 8 * id.length) := by omega
      have a2 : ¬ (n = 8 * id.length) := by omega
      have a3 : n > 8 * id.length := by omega
      simp [a1, a2, a3]

example : getNextBit [0x30#8] 2 = some '1' ∧ getNextBit [0x30#8] 8 = some 'x' ∧
    getNextBit [0x30#8] 9 = none := by decide +kernel

end Gosstrak
