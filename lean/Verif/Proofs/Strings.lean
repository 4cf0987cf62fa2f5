import Verif.Model.Strings

/-! Helper lemmas: lexicographic order, prefixes, `lcp`, sorting. -/
namespace Gosstrak

theorem str_le_cons {a b : Char} {s t : Str} : a :: s ≤ b :: t ↔ a < b ∨ a = b ∧ s ≤ t := by
  rw [← List.not_lt, List.cons_lt_cons_iff]
  constructor
  · intro h
    by_cases hab : a = b
    · right; refine ⟨hab, ?_⟩
      rw [← List.not_lt]; intro ht; exact h (Or.inr ⟨hab.symm, ht⟩)
    · left
      have h1 : ¬ b < a := fun hb => h (Or.inl hb)
      exact Std.lt_of_le_of_ne (Char.not_lt.mp h1) hab
  · rintro (h | ⟨rfl, h⟩) (h2 | ⟨h2, h3⟩)
    · exact Char.lt_asymm h h2
    · subst h2; exact Char.lt_irrefl _ h
    · exact Char.lt_irrefl _ h2
    · exact (List.not_lt.mpr h) h3

theorem nil_le (s : Str) : ([] : Str) ≤ s := by
  rw [← List.not_lt]; exact List.not_lt_nil s

theorem not_cons_le_nil (a : Char) (s : Str) : ¬ (a :: s ≤ []) := by
  intro h
  exact (List.not_lt.mpr h) (List.nil_lt_cons a s)

theorem prefix_le {p s : Str} (h : p <+: s) : p ≤ s := by
  obtain ⟨t, rfl⟩ := h
  induction p with
  | nil => exact nil_le _
  | cons a p ih => rw [List.cons_append, str_le_cons]; exact Or.inr ⟨rfl, ih⟩

theorem str_lt_of_le_of_ne {s t : Str} (h : s ≤ t) (hne : s ≠ t) : s < t := by
  by_cases h1 : s < t
  · exact h1
  · exact absurd (List.le_antisymm h (List.not_lt.mp h1)) hne

/-- a string between two extensions of `p` extends `p` -/
theorem prefix_of_between : ∀ {p a b s : Str}, p <+: a → p <+: b → a ≤ s → s ≤ b → p <+: s
  | [], _, _, _, _, _, _, _ => List.nil_prefix
  | c :: p, a, b, s, ha, hb, h1, h2 => by
    obtain ⟨a', rfl⟩ := ha
    obtain ⟨b', rfl⟩ := hb
    cases s with
    | nil => exact absurd h1 (not_cons_le_nil _ _)
    | cons d s =>
      rw [List.cons_append, str_le_cons] at h1
      rw [List.cons_append, str_le_cons] at h2
      rcases h1 with h1 | ⟨rfl, h1⟩
      · rcases h2 with h2 | ⟨rfl, h2⟩
        · exact absurd h2 (Char.lt_asymm h1)
        · exact absurd h1 (Char.lt_irrefl _)
      · rcases h2 with h2 | ⟨-, h2⟩
        · exact absurd h2 (Char.lt_irrefl _)
        · exact List.cons_prefix_cons.mpr ⟨rfl,
            prefix_of_between ⟨a', rfl⟩ ⟨b', rfl⟩ h1 h2⟩

theorem cutAtDiff_spec : ∀ (a b : Str), a ≤ b →
    cutAtDiff a b <+: a ∧ cutAtDiff a b <+: b ∧ ∀ p, p <+: a → p <+: b → p <+: cutAtDiff a b
  | [], b, _ => by
    simp only [cutAtDiff]
    exact ⟨List.prefix_rfl, List.nil_prefix, fun p h _ => h⟩
  | x :: a, [], h => absurd h (not_cons_le_nil _ _)
  | x :: a, y :: b, h => by
    simp only [cutAtDiff]
    by_cases hxy : x = y
    · subst hxy
      have hab : a ≤ b := by
        rcases str_le_cons.mp h with h | h
        · exact absurd h (Char.lt_irrefl _)
        · exact h.2
      obtain ⟨h1, h2, h3⟩ := cutAtDiff_spec a b hab
      simp only [ne_eq, not_true_eq_false, if_false]
      refine ⟨List.cons_prefix_cons.mpr ⟨rfl, h1⟩, List.cons_prefix_cons.mpr ⟨rfl, h2⟩, ?_⟩
      intro p hp1 hp2
      cases p with
      | nil => exact List.nil_prefix
      | cons c p =>
        obtain ⟨rfl, hp1'⟩ := List.cons_prefix_cons.mp hp1
        obtain ⟨-, hp2'⟩ := List.cons_prefix_cons.mp hp2
        exact List.cons_prefix_cons.mpr ⟨rfl, h3 p hp1' hp2'⟩
    · simp only [ne_eq, hxy, not_false_eq_true, if_true]
      refine ⟨List.nil_prefix, List.nil_prefix, ?_⟩
      intro p hp1 hp2
      cases p with
      | nil => exact List.nil_prefix
      | cons c p =>
        obtain ⟨rfl, -⟩ := List.cons_prefix_cons.mp hp1
        obtain ⟨rfl, -⟩ := List.cons_prefix_cons.mp hp2
        exact absurd rfl hxy

theorem foldl_minMax : ∀ (l : List Str) (mm : Str × Str), mm.1 ≤ mm.2 →
    let r := l.foldl minMaxStep mm
    r.1 ≤ r.2 ∧ r.1 ≤ mm.1 ∧ mm.2 ≤ r.2 ∧ (∀ s ∈ l, r.1 ≤ s ∧ s ≤ r.2) ∧
      (r.1 = mm.1 ∨ r.1 ∈ l) ∧ (r.2 = mm.2 ∨ r.2 ∈ l)
  | [], mm, h => by
    simp only [List.foldl_nil]
    exact ⟨h, List.le_refl _, List.le_refl _, by simp, Or.inl trivial, Or.inl trivial⟩
  | s :: l, mm, h => by
    simp only [List.foldl_cons]
    have hstep : (minMaxStep mm s).1 ≤ (minMaxStep mm s).2 ∧ (minMaxStep mm s).1 ≤ mm.1 ∧
        mm.2 ≤ (minMaxStep mm s).2 ∧ (minMaxStep mm s).1 ≤ s ∧ s ≤ (minMaxStep mm s).2 ∧
        ((minMaxStep mm s).1 = mm.1 ∨ (minMaxStep mm s).1 = s) ∧
        ((minMaxStep mm s).2 = mm.2 ∨ (minMaxStep mm s).2 = s) := by
      unfold minMaxStep
      split
      · rename_i h1
        have h1' : s ≤ mm.1 := List.le_of_lt h1
        exact ⟨List.le_trans h1' h, h1', List.le_refl _, List.le_refl _,
          List.le_trans h1' h, Or.inr rfl, Or.inl rfl⟩
      · rename_i h1
        have h1' : mm.1 ≤ s := List.not_lt.mp h1
        split
        · rename_i h2
          have h2' : mm.2 ≤ s := List.le_of_lt h2
          exact ⟨h1', List.le_refl _, h2', h1', List.le_refl _, Or.inl rfl, Or.inr rfl⟩
        · rename_i h2
          exact ⟨h, List.le_refl _, List.le_refl _, h1', List.not_lt.mp h2, Or.inl rfl,
            Or.inl rfl⟩
    obtain ⟨a1, a2, a3, a4, a5, a6, a7⟩ := hstep
    obtain ⟨b1, b2, b3, b4, b5, b6⟩ := foldl_minMax l (minMaxStep mm s) a1
    refine ⟨b1, List.le_trans b2 a2, List.le_trans a3 b3, ?_, ?_, ?_⟩
    · intro t ht
      rcases List.mem_cons.mp ht with rfl | ht
      · exact ⟨List.le_trans b2 a4, List.le_trans a5 b3⟩
      · exact b4 t ht
    · rcases b5 with b5 | b5
      · rcases a6 with a6 | a6
        · left; rw [b5, a6]
        · right; rw [b5, a6]; simp
      · right; simp [b5]
    · rcases b6 with b6 | b6
      · rcases a7 with a7 | a7
        · left; rw [b6, a7]
        · right; rw [b6, a7]; simp
      · right; simp [b6]

theorem lcp_spec (l : List Str) (hne : l ≠ []) :
    (∀ s ∈ l, lcp l <+: s) ∧ ∀ p, (∀ s ∈ l, p <+: s) → p <+: lcp l := by
  match l, hne with
  | [s], _ => simp [lcp]
  | s :: t :: rest, _ =>
    simp only [lcp]
    obtain ⟨h1, h2, h3, h4, h5, h6⟩ := foldl_minMax (t :: rest) (s, s) (List.le_refl _)
    obtain ⟨c1, c2, c3⟩ := cutAtDiff_spec _ _ h1
    refine ⟨fun u hu => ?_, fun p hp => ?_⟩
    · rcases List.mem_cons.mp hu with rfl | hu
      · exact prefix_of_between c1 c2 h2 h3
      · exact prefix_of_between c1 c2 (h4 u hu).1 (h4 u hu).2
    · apply c3
      · rcases h5 with h5 | h5
        · rw [h5]; exact hp s (by simp)
        · exact hp _ (List.mem_cons_of_mem _ h5)
      · rcases h6 with h6 | h6
        · rw [h6]; exact hp s (by simp)
        · exact hp _ (List.mem_cons_of_mem _ h6)

/-! ### partial LCP -/

theorem count_stripHead (c : Char) (p : Str) (l : List Str) :
    ((stripHead c l).filter fun s => p.isPrefixOf s).length =
      (l.filter fun s => (c :: p).isPrefixOf s).length := by
  induction l with
  | nil => rfl
  | cons s l ih =>
    unfold stripHead at *
    cases s with
    | nil => simpa using ih
    | cons d r =>
      rw [List.filterMap_cons]
      by_cases h : d = c
      · subst h
        simp only [if_true, List.filter_cons, List.isPrefixOf_cons_cons, beq_self_eq_true,
          Bool.true_and]
        split <;> simp [ih]
      · have : (c == d) = false := by simp [Ne.symm h]
        simp only [h, if_false, List.filter_cons, List.isPrefixOf_cons_cons, this, Bool.false_and]
        simpa using ih

theorem mem_stripHead {c : Char} {r : Str} {l : List Str} : r ∈ stripHead c l ↔ c :: r ∈ l := by
  unfold stripHead
  rw [List.mem_filterMap]
  constructor
  · rintro ⟨s, hs, h⟩
    cases s with
    | nil => simp at h
    | cons d t =>
      simp only at h
      split at h
      · rename_i hd; simp at h; subst hd; subst h; exact hs
      · simp at h
  · intro h; exact ⟨c :: r, h, by simp⟩

theorem findPartialLCP_spec : ∀ (n : Nat) (l : List Str), (l.map List.length).sum ≤ n →
    (findPartialLCP l = ([], 0)) ∨
    ((findPartialLCP l).1 ≠ [] ∧ 2 ≤ (findPartialLCP l).2 ∧
      (findPartialLCP l).2 = (l.filter fun s => (findPartialLCP l).1.isPrefixOf s).length ∧
      ∀ q, (∀ s ∈ l, (findPartialLCP l).1 <+: s → q <+: s) → q <+: (findPartialLCP l).1) := by
  intro n
  induction n using Nat.strongRecOn with
  | _ n ih =>
  intro l hl
  rw [findPartialLCP]
  by_cases h2 : l.length < 2
  · left; simp [h2]
  simp only [h2, if_false]
  have hne : l ≠ [] := by intro h; subst h; simp at h2
  by_cases hm : (lcp l).length ≠ 0
  · right
    simp only [hm, ne_eq, not_false_eq_true, if_true]
    obtain ⟨hp, hmax⟩ := lcp_spec l hne
    refine ⟨by intro h; simp [h] at hm, by omega, ?_, ?_⟩
    · rw [List.filter_eq_self.mpr]
      intro s hs
      exact List.isPrefixOf_iff_prefix.mpr (hp s hs)
    · intro q hq
      exact hmax q fun s hs => hq s hs (hp s hs)
  simp only [hm, if_false]
  -- one recursive call
  have rec1 : ∀ c : Char, (stripHead c l).length > 1 →
      (findPartialLCP (stripHead c l) = ([], 0)) ∨
      ('0' = '0' ∧ 2 ≤ (findPartialLCP (stripHead c l)).2 ∧
        (findPartialLCP (stripHead c l)).2
          = (l.filter fun s => (c :: (findPartialLCP (stripHead c l)).1).isPrefixOf s).length ∧
        ∀ q, (∀ s ∈ l, c :: (findPartialLCP (stripHead c l)).1 <+: s → q <+: s) →
          q <+: c :: (findPartialLCP (stripHead c l)).1) := by
    intro c hc
    have hsum := sum_stripHead_le c l
    rcases ih _ (by omega) (stripHead c l) (Nat.le_refl _) with h | ⟨h1, h2', h3, h4⟩
    · exact Or.inl h
    · right
      refine ⟨rfl, h2', ?_, ?_⟩
      · conv => lhs; rw [h3]
        exact count_stripHead c _ l
      · intro q hq
        cases q with
        | nil => exact List.nil_prefix
        | cons d q =>
          -- some element of `l` starts with the prefix
          have hex : ∃ s ∈ l, c :: (findPartialLCP (stripHead c l)).1 <+: s := by
            have : 0 < (List.filter (fun s => (findPartialLCP (stripHead c l)).1.isPrefixOf s)
              (stripHead c l)).length := by omega
            obtain ⟨r, hr⟩ := List.exists_mem_of_length_pos this
            obtain ⟨hr1, hr2⟩ := List.mem_filter.mp hr
            exact ⟨c :: r, mem_stripHead.mp hr1,
              List.cons_prefix_cons.mpr ⟨rfl, List.isPrefixOf_iff_prefix.mp hr2⟩⟩
          obtain ⟨s, hs, hps⟩ := hex
          have hd : d = c := by
            have hqs := hq s hs hps
            cases s with
            | nil => simp at hqs
            | cons e s =>
              have a := (List.cons_prefix_cons.mp hqs).1
              have b := (List.cons_prefix_cons.mp hps).1
              rw [a, b]
          subst hd
          refine List.cons_prefix_cons.mpr ⟨rfl, h4 q fun r hr hpr => ?_⟩
          have := hq (d :: r) (mem_stripHead.mp hr) (List.cons_prefix_cons.mpr ⟨rfl, hpr⟩)
          exact (List.cons_prefix_cons.mp this).2
  by_cases hz : (stripHead '0' l).length > 1
  · simp only [hz, dite_true]
    rcases rec1 '0' hz with h | h
    · simp only [h, List.length_nil, ne_eq, not_true_eq_false, false_and, if_false]
      by_cases ho : (stripHead '1' l).length > 1
      · simp only [ho, dite_true]
        rcases rec1 '1' ho with h' | h'
        · left; simp [h']
        · split
          · right
            exact ⟨by simp, h'.2.1, h'.2.2.1, h'.2.2.2⟩
          · left; rfl
      · left; simp [ho]
    · split
      · right
        exact ⟨by simp, h.2.1, h.2.2.1, h.2.2.2⟩
      · by_cases ho : (stripHead '1' l).length > 1
        · simp only [ho, dite_true]
          rcases rec1 '1' ho with h' | h'
          · left; simp [h']
          · split
            · right
              exact ⟨by simp, h'.2.1, h'.2.2.1, h'.2.2.2⟩
            · left; rfl
        · left; simp [ho]
  · simp only [hz, dite_false, List.length_nil, ne_eq, not_true_eq_false, false_and, if_false]
    by_cases ho : (stripHead '1' l).length > 1
    · simp only [ho, dite_true]
      rcases rec1 '1' ho with h' | h'
      · left; simp [h']
      · split
        · right
          exact ⟨by simp, h'.2.1, h'.2.2.1, h'.2.2.2⟩
        · left; rfl
    · left; simp [ho]

/-! ### sorting -/

theorem insertSorted_perm (s : Str) (l : List Str) : (insertSorted s l).Perm (s :: l) := by
  induction l with
  | nil => exact List.Perm.refl _
  | cons t ts ih =>
    simp only [insertSorted]
    split
    · exact List.Perm.refl _
    · exact (List.Perm.cons t ih).trans (List.Perm.swap s t ts)

theorem sortStrings_perm (l : List Str) : (sortStrings l).Perm l := by
  induction l with
  | nil => exact List.Perm.refl _
  | cons s l ih =>
    simp only [sortStrings]
    exact (insertSorted_perm s _).trans (List.Perm.cons s ih)

theorem insertSorted_sorted (s : Str) (l : List Str) (h : l.Pairwise (· ≤ ·)) :
    (insertSorted s l).Pairwise (· ≤ ·) := by
  induction l with
  | nil => simp [insertSorted]
  | cons t ts ih =>
    simp only [insertSorted]
    obtain ⟨h1, h2⟩ := List.pairwise_cons.mp h
    split
    · rename_i hlt
      refine List.pairwise_cons.mpr ⟨fun u hu => ?_, h⟩
      rcases List.mem_cons.mp hu with rfl | hu
      · exact List.le_of_lt hlt
      · exact List.le_trans (List.le_of_lt hlt) (h1 u hu)
    · rename_i hlt
      refine List.pairwise_cons.mpr ⟨fun u hu => ?_, ih h2⟩
      rcases List.mem_cons.mp ((insertSorted_perm s ts).mem_iff.mp hu) with rfl | hu
      · exact List.not_lt.mp hlt
      · exact h1 u hu

theorem sortStrings_sorted (l : List Str) : (sortStrings l).Pairwise (· ≤ ·) := by
  induction l with
  | nil => exact List.Pairwise.nil
  | cons s l ih => exact insertSorted_sorted s _ ih

theorem sorted_perm_unique : ∀ {l m : List Str}, l.Perm m → l.Pairwise (· ≤ ·) →
    m.Pairwise (· ≤ ·) → l = m
  | [], m, h, _, _ => (List.Perm.nil_eq h)
  | a :: l, m, h, hl, hm => by
    cases m with
    | nil => exact absurd h.symm.nil_eq (by simp)
    | cons b m =>
      obtain ⟨hl1, hl2⟩ := List.pairwise_cons.mp hl
      obtain ⟨hm1, hm2⟩ := List.pairwise_cons.mp hm
      have hab : a = b := by
        have ha : a ∈ b :: m := h.mem_iff.mp (by simp)
        have hb : b ∈ a :: l := h.mem_iff.mpr (by simp)
        rcases List.mem_cons.mp ha with h1 | h1
        · exact h1
        · rcases List.mem_cons.mp hb with h2 | h2
          · exact h2.symm
          · exact List.le_antisymm (hl1 b h2) (hm1 a h1)
      subst hab
      rw [sorted_perm_unique (List.Perm.cons_inv h) hl2 hm2]

theorem sortStrings_eq_of_perm {l m : List Str} (h : l.Perm m) : sortStrings l = sortStrings m :=
  sorted_perm_unique ((sortStrings_perm l).trans (h.trans (sortStrings_perm m).symm))
    (sortStrings_sorted l) (sortStrings_sorted m)

theorem sortStrings_lt {l : List Str} (h : l.Nodup) : (sortStrings l).Pairwise (· < ·) := by
  have h1 := sortStrings_sorted l
  have h2 : (sortStrings l).Nodup := (sortStrings_perm l).symm.nodup h
  exact (List.pairwise_and_iff.mpr ⟨h1, h2⟩).imp fun h => str_lt_of_le_of_ne h.1 h.2

end Gosstrak
