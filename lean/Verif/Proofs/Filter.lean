import Verif.Model.Filter
import Verif.Spec.Bits

/-! Helper lemmas about filters: closed form of `makeFilter`, bitwise reading of `matchID`. -/
namespace Gosstrak

/-- number of bytes occupied by a filter of `len` bits at bit `l` of its first byte -/
def filterBytes (l len : Nat) : Nat := if l + len ≤ 8 then 1 else (l + len + 7) / 8

def xToOne (c : Char) : Char := if c = 'x' then '1' else c
def xMask (c : Char) : Char := if c = 'x' then '1' else '0'

theorem makeFilter_fst (s : Str) (o : Nat) : (makeFilter s o).1 = o / 8 := by
  rw [makeFilter]; simp only; split <;> rfl

theorem zipWith_mask_replicate (s : Str) (n : Nat) (h : n = s.length) :
    List.zipWith (fun c d => if c = 'x' then '1' else d) s (List.replicate n '0') = s.map xMask := by
  subst h
  induction s with
  | nil => rfl
  | cons c s ih => simp [List.replicate_succ, ih, xMask]

theorem zipWith_mask_ones (n : Nat) :
    List.zipWith (fun c d => if c = 'x' then '1' else d) (List.replicate n '1') (List.replicate n '1')
      = List.replicate n '1' := by
  induction n with
  | zero => rfl
  | succ n _ => simp [List.replicate_succ]

theorem makeFilter_closed : ∀ (n : Nat) (s : Str) (o : Nat), s.length ≤ n →
    (makeFilter s o).2.1 = List.replicate (o % 8) '1' ++ s.map xToOne ++
      List.replicate (8 * filterBytes (o % 8) s.length - (o % 8) - s.length) '1' ∧
    (makeFilter s o).2.2 = List.replicate (o % 8) '1' ++ s.map xMask ++
      List.replicate (8 * filterBytes (o % 8) s.length - (o % 8) - s.length) '1' := by
  intro n
  induction n with
  | zero =>
    intro s o hs
    have : s = [] := List.length_eq_zero_iff.mp (by omega)
    subst this
    rw [makeFilter]
    have h8 : o % 8 < 8 := Nat.mod_lt _ (by omega)
    have e : filterBytes (o % 8) 0 = 1 := by unfold filterBytes; rw [if_pos (by omega)]
    have h1 : ¬ (8 - o % 8 < 0) := by omega
    have h2 : ¬ (0 + o % 8 > 8) := by omega
    have e2 : (if o % 8 < 8 then 8 - o % 8 else 0) = 8 - o % 8 := if_pos h8
    simp only [List.length_nil, h1, if_false, h2, dite_false, List.take_nil, List.append_nil,
      List.replicate_zero, List.length_replicate, e2, List.map_nil, e]
    constructor
    · simp
    · rw [List.zipWith_append (by simp)]
      simp
  | succ n ih =>
    intro s o hs
    rw [makeFilter]
    have h8 : o % 8 < 8 := Nat.mod_lt _ (by omega)
    by_cases hlong : 8 - o % 8 < s.length
    · have hrem : s.length + o % 8 > 8 := by omega
      have hlen : (List.replicate (o % 8) '1' ++ s.take (8 - o % 8)).length = 8 := by
        simp; omega
      simp only [hlong, if_true, hrem, dite_true, hlen, Nat.lt_irrefl, if_false,
        List.replicate_zero, List.append_nil]
      obtain ⟨h1, h2⟩ := ih (s.drop (8 - o % 8)) ((o / 8 + 1) * 8) (by simp; omega)
      have hm : (o / 8 + 1) * 8 % 8 = 0 := by omega
      rw [hm] at h1 h2
      simp only [List.replicate_zero, List.nil_append, List.length_drop, Nat.sub_zero] at h1 h2
      have hp : 8 * filterBytes 0 (s.length - (8 - o % 8)) - (s.length - (8 - o % 8))
          = 8 * filterBytes (o % 8) s.length - (o % 8) - s.length := by
        unfold filterBytes
        rw [if_neg (by omega : ¬ (o % 8 + s.length ≤ 8))]
        split <;> omega
      rw [hp] at h1 h2
      rw [h1, h2]
      constructor
      · rw [List.map_append, List.map_replicate, ← List.append_assoc]
        congr 1
        simp only [show (if '1' = 'x' then '1' else '1') = '1' by decide, List.append_assoc]
        congr 1
        have : (fun c => if c = 'x' then '1' else c) = xToOne := rfl
        rw [this, ← List.map_append, List.take_append_drop]
      · rw [List.zipWith_append (by simp), zipWith_mask_ones,
          zipWith_mask_replicate _ _ (by simp; omega), ← List.append_assoc]
        congr 1
        rw [List.append_assoc, ← List.map_append, List.take_append_drop]
    · have hrem : ¬ (s.length + o % 8 > 8) := by omega
      have hlen : (List.replicate (o % 8) '1' ++ s.take s.length).length = o % 8 + s.length := by
        simp
      simp only [hlong, if_false, hrem, dite_false, hlen]
      have e : 8 * filterBytes (o % 8) s.length - o % 8 - s.length = 8 - (o % 8 + s.length) := by
        unfold filterBytes; rw [if_pos (by omega)]; omega
      have e2 : (if o % 8 + s.length < 8 then 8 - (o % 8 + s.length) else 0)
          = 8 - (o % 8 + s.length) := by split <;> omega
      rw [e, e2]
      simp only [List.take_length]
      constructor
      · simp [xToOne]
      · rw [List.zipWith_append (by simp), List.zipWith_append (by simp), zipWith_mask_ones,
          zipWith_mask_ones, zipWith_mask_replicate _ _ rfl]

/-- the two padded bit strings of a filter -/
def filterRunes (s : Str) (o : Nat) : Str :=
  List.replicate (o % 8) '1' ++ s.map xToOne ++
      List.replicate (8 * filterBytes (o % 8) s.length - (o % 8) - s.length) '1'
def maskRunes (s : Str) (o : Nat) : Str :=
  List.replicate (o % 8) '1' ++ s.map xMask ++
      List.replicate (8 * filterBytes (o % 8) s.length - (o % 8) - s.length) '1'

theorem makeFilter_eq (s : Str) (o : Nat) :
    makeFilter s o = (o / 8, filterRunes s o, maskRunes s o) := by
  have h := makeFilter_closed s.length s o (Nat.le_refl _)
  have h1 := makeFilter_fst s o
  ext1
  · exact h1
  · ext1
    · exact h.1
    · exact h.2

theorem filterBytes_pos (l len : Nat) : 0 < filterBytes l len := by
  unfold filterBytes; split <;> omega

theorem filterBytes_ge (l len : Nat) : l + len ≤ 8 * filterBytes l len := by
  unfold filterBytes; split <;> omega

theorem filterRunes_length (s : Str) (o : Nat) :
    (filterRunes s o).length = 8 * filterBytes (o % 8) s.length := by
  have := filterBytes_ge (o % 8) s.length
  simp [filterRunes]; omega

theorem maskRunes_length (s : Str) (o : Nat) :
    (maskRunes s o).length = 8 * filterBytes (o % 8) s.length := by
  have := filterBytes_ge (o % 8) s.length
  simp [maskRunes]; omega

theorem filterRunes_bits {s : Str} (h : IsFilterStr s) (o : Nat) : IsBitStr (filterRunes s o) := by
  intro c hc
  simp only [filterRunes, List.mem_append, List.mem_replicate, List.mem_map] at hc
  rcases hc with (⟨_, rfl⟩ | ⟨a, ha, rfl⟩) | ⟨_, rfl⟩
  · simp
  · rcases h a ha with rfl | rfl | rfl <;> simp [xToOne]
  · simp

theorem maskRunes_bits (s : Str) (o : Nat) : IsBitStr (maskRunes s o) := by
  intro c hc
  simp only [maskRunes, List.mem_append, List.mem_replicate, List.mem_map] at hc
  rcases hc with (⟨_, rfl⟩ | ⟨a, ha, rfl⟩) | ⟨_, rfl⟩
  · simp
  · unfold xMask; split <;> simp
  · simp

/-! ### bytes of a bit string -/

theorem bitOfRune_bit {c : Char} (h : c = '0' ∨ c = '1') : bitOfRune c = some (decide (c = '1')) := by
  rcases h with rfl | rfl <;> rfl

theorem byteOfBits_getMsbD (b7 b6 b5 b4 b3 b2 b1 b0 : Bool) :
    (byteOfBits b7 b6 b5 b4 b3 b2 b1 b0).getMsbD 0 = b7 ∧
    (byteOfBits b7 b6 b5 b4 b3 b2 b1 b0).getMsbD 1 = b6 ∧
    (byteOfBits b7 b6 b5 b4 b3 b2 b1 b0).getMsbD 2 = b5 ∧
    (byteOfBits b7 b6 b5 b4 b3 b2 b1 b0).getMsbD 3 = b4 ∧
    (byteOfBits b7 b6 b5 b4 b3 b2 b1 b0).getMsbD 4 = b3 ∧
    (byteOfBits b7 b6 b5 b4 b3 b2 b1 b0).getMsbD 5 = b2 ∧
    (byteOfBits b7 b6 b5 b4 b3 b2 b1 b0).getMsbD 6 = b1 ∧
    (byteOfBits b7 b6 b5 b4 b3 b2 b1 b0).getMsbD 7 = b0 := by
  revert b7 b6 b5 b4 b3 b2 b1 b0; decide

theorem idBit_cons (b : Byte) (id : List Byte) (n : Nat) :
    idBit (b :: id) n = if n < 8 then b.getMsbD n else idBit id (n - 8) := by
  unfold idBit
  split
  · rename_i x hx
    by_cases h : n < 8
    · have : n / 8 = 0 := by omega
      rw [this] at hx
      simp at hx
      rw [if_pos h, ← hx, Nat.mod_eq_of_lt h]
    · rw [if_neg h]
      have : n / 8 = (n - 8) / 8 + 1 := by omega
      rw [this] at hx
      simp at hx
      rw [hx]
      simp only
      congr 1
      omega
  · rename_i hx
    by_cases h : n < 8
    · have : n / 8 = 0 := by omega
      rw [this] at hx
      simp at hx
    · rw [if_neg h]
      have : n / 8 = (n - 8) / 8 + 1 := by omega
      rw [this] at hx
      simp at hx
      rw [List.getElem?_eq_none hx]

theorem parseBinAux_bits : ∀ (n : Nat) (s : Str), s.length = 8 * n → IsBitStr s →
    ∃ bs, parseBinAux s = some bs ∧ bs.length = n ∧
      ∀ j, idBit bs j = decide (s[j]? = some '1') := by
  intro n
  induction n with
  | zero =>
    intro s hs _
    have : s = [] := List.length_eq_zero_iff.mp (by omega)
    subst this
    exact ⟨[], rfl, rfl, by intro j; simp [idBit]⟩
  | succ n ih =>
    intro s hs hb
    match s, hs with
    | c7 :: c6 :: c5 :: c4 :: c3 :: c2 :: c1 :: c0 :: rest, hs =>
      have hr : IsBitStr rest := fun c hc => hb c (by simp [hc])
      obtain ⟨bs, h1, h2, h3⟩ := ih rest (by simp at hs; omega) hr
      have g7 := bitOfRune_bit (hb c7 (by simp))
      have g6 := bitOfRune_bit (hb c6 (by simp))
      have g5 := bitOfRune_bit (hb c5 (by simp))
      have g4 := bitOfRune_bit (hb c4 (by simp))
      have g3 := bitOfRune_bit (hb c3 (by simp))
      have g2 := bitOfRune_bit (hb c2 (by simp))
      have g1 := bitOfRune_bit (hb c1 (by simp))
      have g0 := bitOfRune_bit (hb c0 (by simp))
      refine ⟨byteOfBits (decide (c7 = '1')) (decide (c6 = '1')) (decide (c5 = '1'))
        (decide (c4 = '1')) (decide (c3 = '1')) (decide (c2 = '1')) (decide (c1 = '1'))
        (decide (c0 = '1')) :: bs, ?_, by simp [h2], ?_⟩
      · simp [parseBinAux, g7, g6, g5, g4, g3, g2, g1, g0, h1]
      · intro j
        rw [idBit_cons]
        obtain ⟨q0, q1, q2, q3, q4, q5, q6, q7⟩ := byteOfBits_getMsbD (decide (c7 = '1'))
          (decide (c6 = '1')) (decide (c5 = '1')) (decide (c4 = '1')) (decide (c3 = '1'))
          (decide (c2 = '1')) (decide (c1 = '1')) (decide (c0 = '1'))
        by_cases h : j < 8
        · rw [if_pos h]
          match j, h with
          | 0, _ => simp [q0]
          | 1, _ => simp [q1]
          | 2, _ => simp [q2]
          | 3, _ => simp [q3]
          | 4, _ => simp [q4]
          | 5, _ => simp [q5]
          | 6, _ => simp [q6]
          | 7, _ => simp [q7]
        · rw [if_neg h, h3]
          obtain ⟨k, rfl⟩ : ∃ k, j = k + 8 := ⟨j - 8, by omega⟩
          simp

theorem parseBin_bits {n : Nat} {s : Str} (hn : 0 < n) (hs : s.length = 8 * n) (hb : IsBitStr s) :
    ∃ bs, parseBin s = some bs ∧ bs.length = n ∧ ∀ j, idBit bs j = decide (s[j]? = some '1') := by
  have : s.isEmpty = false := by cases s <;> simp_all; omega
  unfold parseBin
  rw [this]
  exact parseBinAux_bits n s hs hb

/-- what `newFilter` builds, in terms of bits -/
theorem newFilter_spec {s : Str} (h : IsFilterStr s) (o : Nat) :
    (newFilter s o).str = s ∧ (newFilter s o).size = s.length ∧ (newFilter s o).offset = o ∧
    (newFilter s o).byteOffset = o / 8 ∧
    (newFilter s o).byteSize = filterBytes (o % 8) s.length ∧
    (newFilter s o).byteFilter.length = filterBytes (o % 8) s.length ∧
    (newFilter s o).byteMask.length = filterBytes (o % 8) s.length ∧
    (∀ j, idBit (newFilter s o).byteFilter j = decide ((filterRunes s o)[j]? = some '1')) ∧
    (∀ j, idBit (newFilter s o).byteMask j = decide ((maskRunes s o)[j]? = some '1')) := by
  obtain ⟨bf, f1, f2, f3⟩ := parseBin_bits (filterBytes_pos _ _) (filterRunes_length s o)
    (filterRunes_bits h o)
  obtain ⟨bm, m1, m2, m3⟩ := parseBin_bits (filterBytes_pos _ _) (maskRunes_length s o)
    (maskRunes_bits s o)
  unfold newFilter
  rw [makeFilter_eq]
  simp only [f1, m1, Option.getD_some]
  exact ⟨trivial, trivial, trivial, trivial, f2, f2, m2, f3, m3⟩

/-! ### `Match` bit by bit -/

theorem byte_eq_iff (a b : Byte) : a = b ↔ ∀ j, j < 8 → a.getMsbD j = b.getMsbD j := by
  constructor
  · rintro rfl _ _; rfl
  · intro h
    apply BitVec.eq_of_getMsbD_eq
    intro i hi
    exact h i hi

theorem byte_test_iff (b m v : Byte) :
    (b ||| m) ^^^ v = 0#8 ↔ ∀ j, j < 8 → (b.getMsbD j || m.getMsbD j) = v.getMsbD j := by
  rw [byte_eq_iff]
  constructor
  · intro h j hj
    have := h j hj
    simp only [BitVec.getMsbD_xor, BitVec.getMsbD_or] at this
    have hz : (0#8).getMsbD j = false := by simp
    rw [hz] at this
    revert this
    generalize (b.getMsbD j || m.getMsbD j) = p
    generalize v.getMsbD j = q
    cases p <;> cases q <;> simp
  · intro h j hj
    have := h j hj
    simp only [BitVec.getMsbD_xor, BitVec.getMsbD_or, this]
    simp

/-- byte `i` of the filter agrees with byte `bo + i` of the ID under the mask -/
def byteOk (f : FilterObject) (id : List Byte) (i : Nat) : Prop :=
  ∀ j, j < 8 → (idBit id (8 * (f.byteOffset + i) + j) || idBit f.byteMask (8 * i + j))
    = idBit f.byteFilter (8 * i + j)

theorem idBit_byte {id : List Byte} {i : Nat} {b : Byte} (h : id[i]? = some b) {j : Nat}
    (hj : j < 8) : idBit id (8 * i + j) = b.getMsbD j := by
  unfold idBit
  have e1 : (8 * i + j) / 8 = i := by omega
  have e2 : (8 * i + j) % 8 = j := by omega
  rw [e1, h, e2]

theorem byteOk_iff {f : FilterObject} {id : List Byte} {i : Nat} {b m v : Byte}
    (h1 : id[f.byteOffset + i]? = some b) (h2 : f.byteMask[i]? = some m)
    (h3 : f.byteFilter[i]? = some v) : byteOk f id i ↔ (b ||| m) ^^^ v = 0#8 := by
  rw [byte_test_iff]
  unfold byteOk
  constructor
  · intro h j hj
    have := h j hj
    rwa [idBit_byte h1 hj, idBit_byte h2 hj, idBit_byte h3 hj] at this
  · intro h j hj
    rw [idBit_byte h1 hj, idBit_byte h2 hj, idBit_byte h3 hj]
    exact h j hj

theorem matchLoop_true_iff {f : FilterObject} {id : List Byte} : ∀ (n i : Nat),
    f.byteOffset + i + n ≤ id.length → i + n ≤ f.byteMask.length → i + n ≤ f.byteFilter.length →
    (f.matchLoop id i n = some true ∨ f.matchLoop id i n = some false) ∧
    (f.matchLoop id i n = some true ↔ ∀ k, i ≤ k → k < i + n → byteOk f id k) := by
  intro n
  induction n with
  | zero =>
    intro i _ _ _
    simp only [FilterObject.matchLoop]
    exact ⟨Or.inl trivial, ⟨fun _ k h1 h2 => by omega, fun _ => trivial⟩⟩
  | succ n ih =>
    intro i h1 h2 h3
    have e1 : id[f.byteOffset + i]? = some id[f.byteOffset + i] :=
      List.getElem?_eq_getElem (by omega)
    have e2 : f.byteMask[i]? = some f.byteMask[i] := List.getElem?_eq_getElem (by omega)
    have e3 : f.byteFilter[i]? = some f.byteFilter[i] := List.getElem?_eq_getElem (by omega)
    have hb := byteOk_iff e1 e2 e3
    simp only [FilterObject.matchLoop, e1, e2, e3]
    by_cases ht : (id[f.byteOffset + i] ||| f.byteMask[i]) ^^^ f.byteFilter[i] = 0#8
    · have := ih (i + 1) (by omega) (by omega) (by omega)
      simp only [ne_eq, ht, not_true_eq_false, if_false]
      refine ⟨this.1, this.2.trans ⟨fun h k hk1 hk2 => ?_, fun h k hk1 hk2 => ?_⟩⟩
      · by_cases hki : k = i
        · subst hki; exact hb.mpr ht
        · exact h k (by omega) (by omega)
      · exact h k (by omega) (by omega)
    · simp only [ne_eq, ht, not_false_eq_true, if_true]
      refine ⟨Or.inr trivial, ⟨fun h => by simp at h, fun h => ?_⟩⟩
      exact absurd (hb.mp (h i (Nat.le_refl _) (by omega))) ht

theorem filterRunes_getElem? (s : Str) (o j : Nat) :
    (filterRunes s o)[j]? =
      if j < o % 8 then some '1'
      else if h : j - o % 8 < s.length then some (xToOne s[j - o % 8])
      else if j < 8 * filterBytes (o % 8) s.length then some '1' else none := by
  have hge := filterBytes_ge (o % 8) s.length
  unfold filterRunes
  rw [List.append_assoc]
  by_cases h1 : j < o % 8
  · rw [if_pos h1, List.getElem?_append_left (by simpa using h1), List.getElem?_replicate, if_pos h1]
  · rw [if_neg h1, List.getElem?_append_right (by simp; omega)]
    simp only [List.length_replicate]
    by_cases h2 : j - o % 8 < s.length
    · rw [dif_pos h2, List.getElem?_append_left (by simpa using h2)]
      simp [List.getElem?_map, List.getElem?_eq_getElem h2]
    · rw [dif_neg h2, List.getElem?_append_right (by simp; omega), List.getElem?_replicate]
      simp only [List.length_map]
      by_cases h3 : j < 8 * filterBytes (o % 8) s.length
      · rw [if_pos h3, if_pos (by omega)]
      · rw [if_neg h3, if_neg (by omega)]

theorem maskRunes_getElem? (s : Str) (o j : Nat) :
    (maskRunes s o)[j]? =
      if j < o % 8 then some '1'
      else if h : j - o % 8 < s.length then some (xMask s[j - o % 8])
      else if j < 8 * filterBytes (o % 8) s.length then some '1' else none := by
  have hge := filterBytes_ge (o % 8) s.length
  unfold maskRunes
  rw [List.append_assoc]
  by_cases h1 : j < o % 8
  · rw [if_pos h1, List.getElem?_append_left (by simpa using h1), List.getElem?_replicate, if_pos h1]
  · rw [if_neg h1, List.getElem?_append_right (by simp; omega)]
    simp only [List.length_replicate]
    by_cases h2 : j - o % 8 < s.length
    · rw [dif_pos h2, List.getElem?_append_left (by simpa using h2)]
      simp [List.getElem?_map, List.getElem?_eq_getElem h2]
    · rw [dif_neg h2, List.getElem?_append_right (by simp; omega), List.getElem?_replicate]
      simp only [List.length_map]
      by_cases h3 : j < 8 * filterBytes (o % 8) s.length
      · rw [if_pos h3, if_pos (by omega)]
      · rw [if_neg h3, if_neg (by omega)]

theorem covers_bytes {s : Str} {o : Nat} {id : List Byte} (h : Covers s o id) :
    o / 8 + filterBytes (o % 8) s.length ≤ id.length := by
  obtain ⟨h1, h2⟩ := h
  unfold filterBytes
  split <;> omega

/-- byte-wise agreement over all bytes of a filter is bit-wise agreement with its string -/
theorem allBytesOk_iff {s : Str} (hs : IsFilterStr s) (o : Nat) (id : List Byte) :
    (∀ k, k < filterBytes (o % 8) s.length → byteOk (newFilter s o) id k) ↔ Carries s o id := by
  obtain ⟨-, -, -, hbo, -, -, -, hf, hm⟩ := newFilter_spec hs o
  have hge := filterBytes_ge (o % 8) s.length
  unfold byteOk Carries
  simp only [hf, hm, hbo]
  constructor
  · intro h i c hc hx
    obtain ⟨hi, rfl⟩ := List.getElem?_eq_some_iff.mp hc
    have := h ((o % 8 + i) / 8) (by omega) ((o % 8 + i) % 8) (by omega)
    have e1 : 8 * (o / 8 + (o % 8 + i) / 8) + (o % 8 + i) % 8 = o + i := by omega
    have e2 : 8 * ((o % 8 + i) / 8) + (o % 8 + i) % 8 = o % 8 + i := by omega
    rw [e1, e2, filterRunes_getElem?, maskRunes_getElem?] at this
    have e3 : o % 8 + i - o % 8 = i := by omega
    simp only [show ¬ (o % 8 + i < o % 8) by omega, if_false, e3, hi, dite_true, xToOne, xMask,
      hx] at this
    rw [show decide (some '0' = some '1') = false by decide, Bool.or_false] at this
    rw [this]; simp
  · intro h k hk j hj
    rw [filterRunes_getElem?, maskRunes_getElem?]
    by_cases h1 : 8 * k + j < o % 8
    · simp [h1]
    · simp only [h1, if_false]
      by_cases h2 : 8 * k + j - o % 8 < s.length
      · simp only [h2, dite_true]
        have := h (8 * k + j - o % 8) _ (List.getElem?_eq_getElem h2)
        have e1 : o + (8 * k + j - o % 8) = 8 * (o / 8 + k) + j := by omega
        rw [e1] at this
        unfold xToOne xMask
        by_cases hx : s[8 * k + j - o % 8] = 'x'
        · simp [hx]
        · have := this hx
          simp only [hx, if_false]
          rw [show decide (some '0' = some '1') = false by decide, Bool.or_false]
          rw [Bool.eq_iff_iff, ← this]
          simp
      · have h3 : 8 * k + j < 8 * filterBytes (o % 8) s.length := by omega
        simp [h2, h3]

/-- `Match` of a freshly built filter decides `Carries` on a covering ID. -/
theorem matchID_newFilter {s : Str} (hs : IsFilterStr s) {o : Nat} {id : List Byte}
    (hc : Covers s o id) :
    ∃ r, (newFilter s o).matchID id = some r ∧ (r = true ↔ Carries s o id) := by
  obtain ⟨-, -, -, hbo, hsz, hlf, hlm, -, -⟩ := newFilter_spec hs o
  have hcb := covers_bytes hc
  have h := matchLoop_true_iff (f := newFilter s o) (id := id)
    (filterBytes (o % 8) s.length) 0 (by omega) (by omega) (by omega)
  unfold FilterObject.matchID
  rw [hsz]
  have hall : ((newFilter s o).matchLoop id 0 (filterBytes (o % 8) s.length) = some true) ↔
      Carries s o id := by
    rw [h.2, ← allBytesOk_iff hs o id]
    constructor
    · intro g k hk; exact g k (Nat.zero_le _) (by omega)
    · intro g k _ hk; exact g k (by omega)
  rcases h.1 with h1 | h1
  · exact ⟨true, h1, by simpa [h1] using hall⟩
  · exact ⟨false, h1, by simpa [h1] using hall⟩

end Gosstrak

namespace Gosstrak

/-- byte-wise agreement of one byte, bit by bit -/
theorem byteOk_newFilter_iff {s : Str} (hs : IsFilterStr s) (o : Nat) (id : List Byte) {k : Nat}
    (hk : k < filterBytes (o % 8) s.length) :
    byteOk (newFilter s o) id k ↔ ∀ i c, s[i]? = some c → c ≠ 'x' → (o % 8 + i) / 8 = k →
      (c = '1' ↔ idBit id (o + i) = true) := by
  obtain ⟨-, -, -, hbo, -, -, -, hf, hm⟩ := newFilter_spec hs o
  have hge := filterBytes_ge (o % 8) s.length
  unfold byteOk
  simp only [hf, hm, hbo]
  constructor
  · intro h i c hc hx hik
    subst hik
    obtain ⟨hi, rfl⟩ := List.getElem?_eq_some_iff.mp hc
    have := h ((o % 8 + i) % 8) (by omega)
    have e1 : 8 * (o / 8 + (o % 8 + i) / 8) + (o % 8 + i) % 8 = o + i := by omega
    have e2 : 8 * ((o % 8 + i) / 8) + (o % 8 + i) % 8 = o % 8 + i := by omega
    rw [e1, e2, filterRunes_getElem?, maskRunes_getElem?] at this
    have e3 : o % 8 + i - o % 8 = i := by omega
    simp only [show ¬ (o % 8 + i < o % 8) by omega, if_false, e3, hi, dite_true, xToOne, xMask,
      hx] at this
    rw [show decide (some '0' = some '1') = false by decide, Bool.or_false] at this
    rw [this]; simp
  · intro h j hj
    rw [filterRunes_getElem?, maskRunes_getElem?]
    by_cases h1 : 8 * k + j < o % 8
    · simp [h1]
    · simp only [h1, if_false]
      by_cases h2 : 8 * k + j - o % 8 < s.length
      · simp only [h2, dite_true]
        have := h (8 * k + j - o % 8) _ (List.getElem?_eq_getElem h2)
        have e1 : o + (8 * k + j - o % 8) = 8 * (o / 8 + k) + j := by omega
        rw [e1] at this
        unfold xToOne xMask
        by_cases hx : s[8 * k + j - o % 8] = 'x'
        · simp [hx]
        · have := this hx (by omega)
          simp only [hx, if_false]
          rw [show decide (some '0' = some '1') = false by decide, Bool.or_false]
          rw [Bool.eq_iff_iff, ← this]
          simp
      · have h3 : 8 * k + j < 8 * filterBytes (o % 8) s.length := by omega
        simp [h2, h3]

theorem matchLoop_short {f : FilterObject} {id : List Byte} : ∀ (n i : Nat),
    f.byteOffset + i + n > id.length → i + n ≤ f.byteMask.length → i + n ≤ f.byteFilter.length →
    (f.matchLoop id i n = none ∨ f.matchLoop id i n = some false ∨ n = 0) ∧
    (f.matchLoop id i n = none ↔ n ≠ 0 ∧
      ∀ k, i ≤ k → f.byteOffset + k < id.length → byteOk f id k) := by
  intro n
  induction n with
  | zero =>
    intro i _ _ _
    simp [FilterObject.matchLoop]
  | succ n ih =>
    intro i h1 h2 h3
    have e2 : f.byteMask[i]? = some f.byteMask[i] := List.getElem?_eq_getElem (by omega)
    have e3 : f.byteFilter[i]? = some f.byteFilter[i] := List.getElem?_eq_getElem (by omega)
    by_cases hin : f.byteOffset + i < id.length
    · have e1 : id[f.byteOffset + i]? = some id[f.byteOffset + i] :=
        List.getElem?_eq_getElem hin
      have hb := byteOk_iff e1 e2 e3
      simp only [FilterObject.matchLoop, e1, e2, e3]
      by_cases ht : (id[f.byteOffset + i] ||| f.byteMask[i]) ^^^ f.byteFilter[i] = 0#8
      · have hn : n ≠ 0 := by omega
        have := ih (i + 1) (by omega) (by omega) (by omega)
        simp only [ne_eq, ht, not_true_eq_false, if_false]
        refine ⟨?_, this.2.trans ⟨fun h => ⟨by omega, fun k hk1 hk2 => ?_⟩,
          fun h => ⟨hn, fun k hk1 hk2 => h.2 k (by omega) hk2⟩⟩⟩
        · rcases this.1 with h | h | h
          · exact Or.inl h
          · exact Or.inr (Or.inl h)
          · exact absurd h hn
        · by_cases hki : k = i
          · subst hki; exact hb.mpr ht
          · exact h.2 k (by omega) hk2
      · simp only [ne_eq, ht, not_false_eq_true, if_true]
        refine ⟨Or.inr (Or.inl trivial), ⟨fun h => by simp at h, fun h => ?_⟩⟩
        exact absurd (hb.mp (h.2 i (Nat.le_refl _) hin)) ht
    · have e1 : id[f.byteOffset + i]? = none := List.getElem?_eq_none (by omega)
      simp only [FilterObject.matchLoop, e1]
      refine ⟨Or.inl trivial, ⟨fun _ => ⟨by omega, fun k hk1 hk2 => by omega⟩, fun _ => trivial⟩⟩

theorem not_covers_bytes {s : Str} {o : Nat} {id : List Byte} (h : ¬ Covers s o id) :
    o / 8 + filterBytes (o % 8) s.length > id.length := by
  unfold Covers at h
  unfold filterBytes
  split <;> omega

theorem getByteAtLoop_eq {f : FilterObject} {bo : Nat} (n i : Nat)
    (hb : f.byteOffset + i ≤ bo) (hn : bo < f.byteOffset + i + n) :
    f.getByteAtLoop bo i n =
      match f.byteFilter[bo - f.byteOffset]?, f.byteMask[bo - f.byteOffset]? with
      | some v, some m => some (some (v, m))
      | _, _ => none := by
  induction n generalizing i with
  | zero => omega
  | succ n ih =>
    simp only [FilterObject.getByteAtLoop]
    by_cases h : bo = f.byteOffset + i
    · rw [if_pos h]
      have : bo - f.byteOffset = i := by omega
      rw [this]
      cases f.byteFilter[i]? <;> cases f.byteMask[i]? <;> rfl
    · rw [if_neg h]
      exact ih (i + 1) (by omega) (by omega)

theorem carries_append (s t : Str) (o : Nat) (id : List Byte) :
    Carries (s ++ t) o id ↔ Carries s o id ∧ Carries t (o + s.length) id := by
  unfold Carries
  constructor
  · intro h
    refine ⟨fun i c hc hx => h i c ?_ hx, fun i c hc hx => ?_⟩
    · have hi := (List.getElem?_eq_some_iff.mp hc).1
      rw [List.getElem?_append_left hi]; exact hc
    · have := h (s.length + i) c (by rw [List.getElem?_append_right (by omega)]; simpa using hc) hx
      rwa [← Nat.add_assoc] at this
  · rintro ⟨h1, h2⟩ i c hc hx
    by_cases hi : i < s.length
    · rw [List.getElem?_append_left hi] at hc
      exact h1 i c hc hx
    · rw [List.getElem?_append_right (by omega)] at hc
      have := h2 (i - s.length) c hc hx
      have e : o + s.length + (i - s.length) = o + i := by omega
      rwa [e] at this

theorem carries_nil (o : Nat) (id : List Byte) : Carries [] o id := by
  intro i c hc; simp at hc

theorem byte_shift_mod (b : Byte) : ∀ k, k < 8 →
    ((b >>> (7 - k)) % 2#8 = 0#8 ↔ b.getMsbD k = false) := by
  revert b; decide +kernel

end Gosstrak
