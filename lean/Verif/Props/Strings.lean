import Verif.Proofs.PartialLCP

/-! # C06, C07: longest common prefix and partial longest common prefix -/
namespace Gosstrak

/-- C06: `lcp` of a non-empty list is a common prefix and the longest one. -/
theorem C06_lcp (l : List Str) (hne : l ≠ []) :
    (∀ s ∈ l, lcp l <+: s) ∧ ∀ p, (∀ s ∈ l, p <+: s) → p <+: lcp l :=
  lcp_spec l hne

/-- C06: on the empty list the answer is the empty string. -/
theorem C06_lcp_nil : lcp [] = [] := rfl

/-- C06: the order and repetition of the strings do not matter. -/
theorem C06_lcp_same_elements (l m : List Str) (h : ∀ s, s ∈ l ↔ s ∈ m) : lcp l = lcp m := by
  by_cases hl : l = []
  · subst hl
    have : m = [] := by
      cases m with
      | nil => rfl
      | cons a m => exact absurd ((h a).mpr (by simp)) (by simp)
    rw [this]
  · have hm : m ≠ [] := by
      rintro rfl
      cases l with
      | nil => exact hl rfl
      | cons a l => exact absurd ((h a).mp (by simp)) (by simp)
    obtain ⟨a1, a2⟩ := lcp_spec l hl
    obtain ⟨b1, b2⟩ := lcp_spec m hm
    have h1 : lcp l <+: lcp m := b2 _ fun s hs => a1 s ((h s).mpr hs)
    have h2 : lcp m <+: lcp l := a2 _ fun s hs => b1 s ((h s).mp hs)
    exact h1.eq_of_length (Nat.le_antisymm h1.length_le h2.length_le)

-- test: neither the first nor the last string decides
example : lcp ["0110".toList, "011".toList, "01011".toList] = "01".toList := by decide
example : lcp ["01".toList, "0110".toList] = "01".toList := by decide

/-- C07: a non-empty answer `p` is shared by exactly the announced number of strings, at least two;
    the number is 0 exactly when the answer is empty; and no longer prefix is shared by all the
    strings that start with `p`. -/
theorem C07_partial_lcp (l : List Str) :
    ((findPartialLCP l).1 = [] ↔ (findPartialLCP l).2 = 0) ∧
    ((findPartialLCP l).1 ≠ [] →
      2 ≤ (findPartialLCP l).2 ∧
      (findPartialLCP l).2 = l.countP (fun s => decide ((findPartialLCP l).1 <+: s)) ∧
      ∀ q, (∀ s ∈ l, (findPartialLCP l).1 <+: s → q <+: s) → q <+: (findPartialLCP l).1) := by
  rcases findPartialLCP_spec _ l (Nat.le_refl _) with h | ⟨h1, h2, h3, h4⟩
  · simp [h]
  · refine ⟨⟨fun h => absurd h h1, fun h => by omega⟩, fun _ => ⟨h2, ?_, h4⟩⟩
    rw [List.countP_eq_length_filter]
    conv => lhs; rw [h3]
    congr 1
    apply List.filter_congr
    intro s _
    rw [Bool.eq_iff_iff, List.isPrefixOf_iff_prefix, decide_eq_true_iff]

-- test: two groups, the '0' group wins although the '1' group is larger
example : findPartialLCP ["0010".toList, "0011".toList, "11".toList, "10".toList, "110".toList]
    = ("001".toList, 2) := by decide +kernel

/-- C07: the search is not complete: two strings share the prefix "0", none is reported. -/
theorem C07_partial_lcp_incomplete :
    ¬ ∀ (l : List Str) (a b : Str), l.Nodup → a ∈ l → b ∈ l → a ≠ b →
      a.head? = some '0' → b.head? = some '0' → (findPartialLCP l).2 ≠ 0 := by
  intro h
  have := h ["00".toList, "01".toList, "1".toList] "00".toList "01".toList (by decide) (by decide)
    (by decide) (by decide) (by decide) (by decide)
  revert this
  decide +kernel

/-- C07, exactly: the answer is the word of a group (`IsGroup`), and of all groups the first in the
    order of the strings. -/
theorem C07_which (l : List Str) (p : Str) (hp : p ≠ []) : (findPartialLCP l).1 = p ↔
    IsGroup l p ∧ ∀ p', IsGroup l p' → p' = p ∨ p < p' :=
  findPartialLCP_iff l p hp

/-- C07, exactly: the answer is empty if and only if, wherever two or more strings have a common start
    in bits, they part there. -/
theorem C07_none_iff (l : List Str) : findPartialLCP l = ([], 0) ↔
    ∀ w, IsBitStr w → 2 ≤ l.countP (fun s => decide (w <+: s)) → NoLonger l w := by
  rw [← findPartialLCP_none_iff]
  constructor
  · intro h; rw [h]
  · intro h
    exact Prod.ext h ((C07_partial_lcp l).1.mp h)

-- test: the group "001" is the answer above; "11" with "110" is no group, because "10" parts from them
-- only at the second bit
example : IsGroup ["0010".toList, "0011".toList, "11".toList, "10".toList, "110".toList] "001".toList :=
  ((C07_which _ _ (by decide)).mp (by decide +kernel : (findPartialLCP _).1 = _)).1
example : ∃ w, IsBitStr w ∧
    2 ≤ ["0010".toList, "0011".toList, "11".toList].countP (fun s => decide (w <+: s)) :=
  ⟨"001".toList, by decide, by decide⟩
example : findPartialLCP ["00".toList, "01".toList, "1".toList] = ([], 0) := by decide +kernel

end Gosstrak
