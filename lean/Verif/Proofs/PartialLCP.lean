import Verif.Proofs.Strings
import Verif.Spec.Strings
import Verif.Spec.Bits

/-! Which group `findPartialLCP` finds. -/
namespace Gosstrak

theorem findPartialLCP_ok (l : List Str) : findPartialLCP l = ([], 0) ∨
    ((findPartialLCP l).1 ≠ [] ∧ 2 ≤ (findPartialLCP l).2 ∧
      (findPartialLCP l).2 = (l.filter fun s => (findPartialLCP l).1.isPrefixOf s).length) := by
  rcases findPartialLCP_spec _ l (Nat.le_refl _) with h | ⟨h1, h2, h3, -⟩
  · exact Or.inl h
  · exact Or.inr ⟨h1, h2, h3⟩

theorem findPartialLCP_short {l : List Str} (h : l.length < 2) : findPartialLCP l = ([], 0) := by
  rw [findPartialLCP, if_pos h]

/-- the cases of `findPartialLCP` without the size tests, which follow from the results -/
theorem findPartialLCP_cases (l : List Str) (h : 2 ≤ l.length) :
    (lcp l ≠ [] ∧ findPartialLCP l = (lcp l, l.length)) ∨
    (lcp l = [] ∧ (findPartialLCP (stripHead '0' l)).1 ≠ [] ∧
      findPartialLCP l = ('0' :: (findPartialLCP (stripHead '0' l)).1, (findPartialLCP (stripHead '0' l)).2)) ∨
    (lcp l = [] ∧ (findPartialLCP (stripHead '0' l)).1 = [] ∧ (findPartialLCP (stripHead '1' l)).1 ≠ [] ∧
      findPartialLCP l = ('1' :: (findPartialLCP (stripHead '1' l)).1, (findPartialLCP (stripHead '1' l)).2)) ∨
    (lcp l = [] ∧ (findPartialLCP (stripHead '0' l)).1 = [] ∧ (findPartialLCP (stripHead '1' l)).1 = [] ∧
      findPartialLCP l = ([], 0)) := by
  have e : findPartialLCP l = if (lcp l).length ≠ 0 then (lcp l, l.length)
      else if (findPartialLCP (stripHead '0' l)).1.length ≠ 0 ∧ (findPartialLCP (stripHead '0' l)).2 > 1 then
        ('0' :: (findPartialLCP (stripHead '0' l)).1, (findPartialLCP (stripHead '0' l)).2)
      else if (findPartialLCP (stripHead '1' l)).1.length ≠ 0 ∧ (findPartialLCP (stripHead '1' l)).2 > 1 then
        ('1' :: (findPartialLCP (stripHead '1' l)).1, (findPartialLCP (stripHead '1' l)).2)
      else ([], 0) := by
    conv => lhs; rw [findPartialLCP]
    have d : ∀ c, (if _ : (stripHead c l).length > 1 then findPartialLCP (stripHead c l) else ([], 0)) =
        findPartialLCP (stripHead c l) := by
      intro c
      split
      · rfl
      · rw [findPartialLCP_short (by omega)]
    rw [if_neg (by omega)]
    dsimp only
    rw [d, d]
  have ne : ∀ s : Str, s.length ≠ 0 ↔ s ≠ [] := fun s => by simp
  rw [e]
  by_cases h1 : lcp l = []
  · rw [if_neg (by simp [h1])]
    rcases findPartialLCP_ok (stripHead '0' l) with h2 | ⟨h2, h2', -⟩
    · rw [if_neg (by simp [h2])]
      rcases findPartialLCP_ok (stripHead '1' l) with h3 | ⟨h3, h3', -⟩
      · rw [if_neg (by simp [h3])]
        exact Or.inr (Or.inr (Or.inr ⟨h1, by rw [h2], by rw [h3], rfl⟩))
      · rw [if_pos ⟨(ne _).mpr h3, h3'⟩]
        exact Or.inr (Or.inr (Or.inl ⟨h1, by rw [h2], h3, rfl⟩))
    · rw [if_pos ⟨(ne _).mpr h2, h2'⟩]
      exact Or.inr (Or.inl ⟨h1, h2, rfl⟩)
  · rw [if_pos ((ne _).mpr h1)]
    exact Or.inl ⟨h1, rfl⟩

theorem noLonger_nil_of_lcp {l : List Str} (hne : l ≠ []) (h : lcp l = []) : NoLonger l [] := by
  intro q hq
  rw [← h]
  exact (lcp_spec l hne).2 q fun s hs => hq s hs List.nil_prefix

/-- sharing below a character -/
theorem noLonger_cons {l : List Str} {c : Char} {w : Str} (hex : ∃ s ∈ l, c :: w <+: s)
    (h : NoLonger (stripHead c l) w) : NoLonger l (c :: w) := by
  intro q hq
  cases q with
  | nil => exact List.nil_prefix
  | cons d q =>
    obtain ⟨s, hs, hp⟩ := hex
    have hd : d = c := by
      have := hq s hs hp
      cases s with
      | nil => simp at hp
      | cons a s => rw [(List.cons_prefix_cons.mp this).1, (List.cons_prefix_cons.mp hp).1]
    subst hd
    refine List.cons_prefix_cons.mpr ⟨rfl, h q fun r hr hpr => ?_⟩
    exact (List.cons_prefix_cons.mp (hq (d :: r) (mem_stripHead.mp hr)
      (List.cons_prefix_cons.mpr ⟨rfl, hpr⟩))).2

/-- The group found is the one at the first node, in the order of depth, whose strings go on together:
    from `P` on they share `p`, and above `P` the strings part at every node. -/
theorem findPartialLCP_node : ∀ (n : Nat) (l : List Str), (l.map List.length).sum ≤ n →
    (findPartialLCP l).1 ≠ [] → ∃ P, IsBitStr P ∧ P <+: (findPartialLCP l).1 ∧ P ≠ (findPartialLCP l).1 ∧
      (∀ s ∈ l, P <+: s → (findPartialLCP l).1 <+: s) ∧ ∀ w, w <+: P → w ≠ P → NoLonger l w := by
  intro n
  induction n using Nat.strongRecOn with
  | _ n ih =>
  intro l hl hne
  have h2 : 2 ≤ l.length := by
    apply Classical.byContradiction
    intro h
    rw [findPartialLCP_short (by omega)] at hne
    exact hne rfl
  have hl0 : l ≠ [] := by rintro rfl; simp at h2
  have step : ∀ c, (c = '0' ∨ c = '1') → lcp l = [] → (findPartialLCP (stripHead c l)).1 ≠ [] →
      findPartialLCP l = (c :: (findPartialLCP (stripHead c l)).1, (findPartialLCP (stripHead c l)).2) →
      ∃ P, IsBitStr P ∧ P <+: (findPartialLCP l).1 ∧ P ≠ (findPartialLCP l).1 ∧
      (∀ s ∈ l, P <+: s → (findPartialLCP l).1 <+: s) ∧ ∀ w, w <+: P → w ≠ P → NoLonger l w := by
    intro c hc h1 h3 h4
    have hlen : 2 ≤ (stripHead c l).length := by
      apply Classical.byContradiction
      intro h
      rw [findPartialLCP_short (by omega)] at h3
      exact h3 rfl
    have hsum := sum_stripHead_le c l
    obtain ⟨P, q0, q1, q2, q3, q4⟩ := ih _ (by omega) (stripHead c l) (Nat.le_refl _) h3
    rw [h4]
    have hex : ∃ s ∈ l, c :: (findPartialLCP (stripHead c l)).1 <+: s := by
      rcases findPartialLCP_ok (stripHead c l) with h | ⟨-, a, b⟩
      · rw [h] at h3; exact absurd rfl h3
      · obtain ⟨r, hr⟩ := List.exists_mem_of_length_pos (l := (stripHead c l).filter fun s =>
          (findPartialLCP (stripHead c l)).1.isPrefixOf s) (by omega)
        obtain ⟨hr1, hr2⟩ := List.mem_filter.mp hr
        exact ⟨c :: r, mem_stripHead.mp hr1,
          List.cons_prefix_cons.mpr ⟨rfl, List.isPrefixOf_iff_prefix.mp hr2⟩⟩
    refine ⟨c :: P, ?_, List.cons_prefix_cons.mpr ⟨rfl, q1⟩, ?_, ?_, ?_⟩
    · intro d hd
      rcases List.mem_cons.mp hd with rfl | hd
      · exact hc
      · exact q0 d hd
    · intro h
      injection h with _ h
      exact q2 h
    · intro s hs hp
      cases s with
      | nil => simp at hp
      | cons a s =>
        obtain ⟨rfl, hp'⟩ := List.cons_prefix_cons.mp hp
        exact List.cons_prefix_cons.mpr ⟨rfl, q3 s (mem_stripHead.mpr hs) hp'⟩
    · intro w hw hwn
      cases w with
      | nil => exact noLonger_nil_of_lcp hl0 h1
      | cons d w =>
        obtain ⟨rfl, hw'⟩ := List.cons_prefix_cons.mp hw
        obtain ⟨s, hs, hps⟩ := hex
        exact noLonger_cons ⟨s, hs, (List.cons_prefix_cons.mpr ⟨rfl, hw'.trans q1⟩).trans hps⟩
          (q4 w hw' fun h => hwn (by rw [h]))
  rcases findPartialLCP_cases l h2 with ⟨h1, h3⟩ | ⟨h1, h3, h4⟩ | ⟨h1, -, h3, h4⟩ | ⟨h1, -, -, h4⟩
  · rw [h3]
    exact ⟨[], by simp [IsBitStr], List.nil_prefix, fun h => h1 h.symm,
      fun s hs _ => (lcp_spec l hl0).1 s hs, fun w hw hwn => absurd (List.prefix_nil.mp hw) hwn⟩
  · exact step '0' (Or.inl rfl) h1 h3 h4
  · exact step '1' (Or.inr rfl) h1 h3 h4
  · rw [h4] at hne
    exact absurd rfl hne

theorem countP_stripHead (c : Char) (w : Str) (l : List Str) :
    (stripHead c l).countP (fun s => decide (w <+: s)) = l.countP (fun s => decide (c :: w <+: s)) := by
  have h := count_stripHead c w l
  rw [List.countP_eq_length_filter, List.countP_eq_length_filter]
  have e : ∀ (v : Str) (l : List Str), (l.filter fun s => v.isPrefixOf s) =
      l.filter fun s => decide (v <+: s) := by
    intro v l
    apply List.filter_congr
    intro s _
    rw [Bool.eq_iff_iff, List.isPrefixOf_iff_prefix, decide_eq_true_iff]
  rw [← e, ← e]
  exact h

/-- No group is found exactly if any two or more strings with a common start in bits part there. -/
theorem findPartialLCP_none_parts : ∀ (n : Nat) (l : List Str), (l.map List.length).sum ≤ n →
    (findPartialLCP l).1 = [] → ∀ w, IsBitStr w → 2 ≤ l.countP (fun s => decide (w <+: s)) →
      NoLonger l w := by
  intro n
  induction n using Nat.strongRecOn with
  | _ n ih =>
  intro l hl hnil w hw hc
  have hle := List.countP_le_length (p := fun s => decide (w <+: s)) (l := l)
  have h2 : 2 ≤ l.length := by omega
  have hl0 : l ≠ [] := by rintro rfl; simp at h2
  rcases findPartialLCP_cases l h2 with ⟨h1, h3⟩ | ⟨h1, h3, h4⟩ | ⟨h1, -, h3, h4⟩ | ⟨h1, h3, h3', h4⟩
  · rw [h3] at hnil; exact absurd hnil h1
  · rw [h4] at hnil; simp at hnil
  · rw [h4] at hnil; simp at hnil
  · cases w with
    | nil => exact noLonger_nil_of_lcp hl0 h1
    | cons c w =>
      rw [← countP_stripHead] at hc
      have hb : c = '0' ∨ c = '1' := hw c (by simp)
      have hlen := List.countP_le_length (p := fun s => decide (w <+: s)) (l := stripHead c l)
      have hsum := sum_stripHead_le c l
      have hnil' : (findPartialLCP (stripHead c l)).1 = [] := by
        rcases hb with rfl | rfl
        · exact h3
        · exact h3'
      refine noLonger_cons ?_ (ih _ (by omega) (stripHead c l) (Nat.le_refl _) hnil' w
        (fun d hd => hw d (by simp [hd])) hc)
      obtain ⟨r, hr, hp⟩ := List.countP_pos_iff.mp (Nat.lt_of_lt_of_le (by decide : 0 < 2) hc)
      exact ⟨c :: r, mem_stripHead.mp hr, List.cons_prefix_cons.mpr ⟨rfl, by simpa using hp⟩⟩

theorem findPartialLCP_none_iff (l : List Str) : (findPartialLCP l).1 = [] ↔
    ∀ w, IsBitStr w → 2 ≤ l.countP (fun s => decide (w <+: s)) → NoLonger l w := by
  constructor
  · exact findPartialLCP_none_parts _ l (Nat.le_refl _)
  · intro h
    apply Classical.byContradiction
    intro hne
    obtain ⟨P, q0, q1, q2, q3, -⟩ := findPartialLCP_node _ l (Nat.le_refl _) hne
    rcases findPartialLCP_ok l with h' | ⟨-, a, b⟩
    · rw [h'] at hne; exact hne rfl
    · have hc : 2 ≤ l.countP (fun s => decide (P <+: s)) := by
        rw [b, ← List.countP_eq_length_filter] at a
        refine Nat.le_trans a (List.countP_mono_left fun s _ hp => ?_)
        rw [List.isPrefixOf_iff_prefix] at hp
        simpa using q1.trans hp
      have := h P q0 hc _ q3
      exact q2 (q1.eq_of_length (Nat.le_antisymm q1.length_le this.length_le))

theorem findPartialLCP_max (l : List Str) (h : (findPartialLCP l).1 ≠ []) : NoLonger l (findPartialLCP l).1 := by
  rcases findPartialLCP_spec _ l (Nat.le_refl _) with h' | ⟨-, -, -, h4⟩
  · rw [h'] at h; exact absurd rfl h
  · exact h4

theorem findPartialLCP_count (l : List Str) (h : (findPartialLCP l).1 ≠ []) :
    2 ≤ l.countP (fun s => decide ((findPartialLCP l).1 <+: s)) := by
  rcases findPartialLCP_ok l with h' | ⟨-, a, b⟩
  · rw [h'] at h; exact absurd rfl h
  · rw [b, ← List.countP_eq_length_filter] at a
    refine Nat.le_trans a (List.countP_mono_left fun s _ hp => ?_)
    rw [List.isPrefixOf_iff_prefix] at hp
    simpa using hp

theorem countP_prefix_mono {l : List Str} {P p : Str} (h : P <+: p) :
    l.countP (fun s => decide (p <+: s)) ≤ l.countP (fun s => decide (P <+: s)) :=
  List.countP_mono_left fun s _ hp => by
    have hp : p <+: s := by simpa using hp
    simpa using h.trans hp

theorem isGroup_findPartialLCP (l : List Str) (h : (findPartialLCP l).1 ≠ []) :
    IsGroup l (findPartialLCP l).1 := by
  obtain ⟨P, q0, q1, q2, q3, q4⟩ := findPartialLCP_node _ l (Nat.le_refl _) h
  exact ⟨P, q0, q1, q2, Nat.le_trans (findPartialLCP_count l h) (countP_prefix_mono q1), q3,
    findPartialLCP_max l h, q4⟩

/-- two prefixes of one string -/
theorem prefix_cmp {a b s : Str} (ha : a <+: s) (hb : b <+: s) : a <+: b ∨ b <+: a :=
  List.prefix_or_prefix_of_prefix ha hb

theorem prefix_antisymm {a b : Str} (h : a <+: b) (h' : b <+: a) : a = b :=
  h.eq_of_length (Nat.le_antisymm h.length_le h'.length_le)

/-- groups at comparable nodes are the same -/
theorem IsGroup.node_eq {l : List Str} {K K' P P' : Str}
    (h1 : P <+: K) (h2 : P ≠ K) (h4 : ∀ s ∈ l, P <+: s → K <+: s)
    (h5 : NoLonger l K) (h6 : ∀ w, w <+: P → w ≠ P → NoLonger l w)
    (g1 : P' <+: K') (g2 : P' ≠ K') (g4 : ∀ s ∈ l, P' <+: s → K' <+: s)
    (g5 : NoLonger l K') (g6 : ∀ w, w <+: P' → w ≠ P' → NoLonger l w)
    (h : P <+: P' ∨ P' <+: P) : K = K' := by
  have e : P = P' := by
    apply Classical.byContradiction
    intro hne
    rcases h with h | h
    · exact h2 (prefix_antisymm h1 (g6 P h hne K h4))
    · exact g2 (prefix_antisymm g1 (h6 P' h (fun e => hne e.symm) K' g4))
  subst e
  refine prefix_antisymm (g5 K fun s hs hp => h4 s hs (g1.trans hp)) (h5 K' fun s hs hp => g4 s hs (h1.trans hp))

/-- No group starts another one. -/
theorem IsGroup.anti {l : List Str} {K K' : Str} (h : IsGroup l K) (h' : IsGroup l K')
    {s : Str} (hk : K <+: s) (hk' : K' <+: s) : K = K' := by
  obtain ⟨P, -, h1, h2, -, h4, h5, h6⟩ := h
  obtain ⟨P', -, g1, g2, -, g4, g5, g6⟩ := h'
  exact IsGroup.node_eq h1 h2 h4 h5 h6 g1 g2 g4 g5 g6 (prefix_cmp (h1.trans hk) (g1.trans hk'))

theorem IsGroup.ne_nil {l : List Str} {K : Str} (h : IsGroup l K) : K ≠ [] := by
  obtain ⟨P, -, h1, h2, -⟩ := h
  rintro rfl
  exact h2 (List.prefix_nil.mp h1)

theorem IsGroup.count {l : List Str} {K : Str} (h : IsGroup l K) :
    2 ≤ l.countP (fun s => decide (K <+: s)) := by
  obtain ⟨P, -, h1, h2, h3, h4, -⟩ := h
  refine Nat.le_trans h3 (List.countP_mono_left fun s hs hp => ?_)
  have hp : P <+: s := by simpa using hp
  simpa using h4 s hs hp

theorem IsGroup.noLonger {l : List Str} {K : Str} (h : IsGroup l K) : NoLonger l K := by
  obtain ⟨P, -, -, -, -, -, h, -⟩ := h
  exact h

/-- without a group found there is none -/
theorem not_isGroup_of_none {l : List Str} (h : (findPartialLCP l).1 = []) (K : Str) : ¬ IsGroup l K := by
  rintro ⟨P, h0, h1, h2, h3, h4, -⟩
  exact h2 (prefix_antisymm h1 ((findPartialLCP_none_iff l).mp h P h0 h3 K h4))

theorem noLonger_strip {l : List Str} {c : Char} {w : Str} (h : NoLonger l (c :: w)) :
    NoLonger (stripHead c l) w := by
  intro q hq
  have := h (c :: q) (by
    intro s hs hp
    cases s with
    | nil => simp at hp
    | cons a s =>
      obtain ⟨rfl, hp'⟩ := List.cons_prefix_cons.mp hp
      exact List.cons_prefix_cons.mpr ⟨rfl, hq s (mem_stripHead.mpr hs) hp'⟩)
  exact (List.cons_prefix_cons.mp this).2

theorem IsGroup.strip {l : List Str} {K : Str} (hlcp : lcp l = []) (h : IsGroup l K) :
    ∃ c K', (c = '0' ∨ c = '1') ∧ K = c :: K' ∧ IsGroup (stripHead c l) K' := by
  obtain ⟨P, h0, h1, h2, h3, h4, h5, h6⟩ := h
  cases P with
  | nil =>
    have hl : l ≠ [] := by rintro rfl; simp at h3
    have := (lcp_spec l hl).2 K fun s hs => h4 s hs List.nil_prefix
    rw [hlcp] at this
    exact absurd (List.prefix_nil.mp this).symm h2
  | cons c P =>
    cases K with
    | nil => simp at h1
    | cons d K =>
      obtain ⟨rfl, h1'⟩ := List.cons_prefix_cons.mp h1
      refine ⟨c, K, h0 c (by simp), rfl, P, fun d hd => h0 d (by simp [hd]), h1',
        fun e => h2 (by rw [e]), ?_, ?_, noLonger_strip h5, ?_⟩
      · rw [countP_stripHead]; exact h3
      · intro s hs hp
        exact (List.cons_prefix_cons.mp (h4 (c :: s) (mem_stripHead.mp hs)
          (List.cons_prefix_cons.mpr ⟨rfl, hp⟩))).2
      · intro w hw hwn
        exact noLonger_strip (h6 (c :: w) (List.cons_prefix_cons.mpr ⟨rfl, hw⟩)
          fun e => hwn (by injection e))

/-- The group found is the first one in the order of the strings. -/
theorem findPartialLCP_least : ∀ (n : Nat) (l : List Str), (l.map List.length).sum ≤ n →
    (findPartialLCP l).1 ≠ [] → ∀ K, IsGroup l K → K = (findPartialLCP l).1 ∨ (findPartialLCP l).1 < K := by
  intro n
  induction n using Nat.strongRecOn with
  | _ n ih =>
  intro l hl hne K hK
  have h2 : 2 ≤ l.length := by
    apply Classical.byContradiction
    intro h
    rw [findPartialLCP_short (by omega)] at hne
    exact hne rfl
  have hl0 : l ≠ [] := by rintro rfl; simp at h2
  have hsum : ∀ c, (findPartialLCP (stripHead c l)).1 ≠ [] → ((stripHead c l).map List.length).sum < n := by
    intro c h3
    have hlen : 2 ≤ (stripHead c l).length := by
      apply Classical.byContradiction
      intro h
      rw [findPartialLCP_short (by omega)] at h3
      exact h3 rfl
    have := sum_stripHead_le c l
    omega
  rcases findPartialLCP_cases l h2 with ⟨h1, h3⟩ | ⟨h1, h3, h4⟩ | ⟨h1, h3', h3, h4⟩ | ⟨h1, -, -, h4⟩
  · left
    have hg := isGroup_findPartialLCP l hne
    obtain ⟨P, -, g1, g2, g3, g4, g5, g6⟩ := hg
    obtain ⟨P', -, f1, f2, f3, f4, f5, f6⟩ := hK
    have hp : P = [] := by
      apply Classical.byContradiction
      intro hP
      have := g6 [] List.nil_prefix (fun e => hP e.symm) (lcp l) fun s hs _ => (lcp_spec l hl0).1 s hs
      exact h1 (List.prefix_nil.mp this)
    exact IsGroup.node_eq f1 f2 f4 f5 f6 g1 g2 g4 g5 g6 (Or.inr (by rw [hp]; exact List.nil_prefix))
  · obtain ⟨c, K', hc, rfl, hg⟩ := hK.strip h1
    rw [h4]
    rcases hc with rfl | rfl
    · rcases ih _ (hsum '0' h3) (stripHead '0' l) (Nat.le_refl _) h3 K' hg with h | h
      · left; rw [h]
      · right; simpa using h
    · right
      rw [List.cons_lt_cons_iff]
      exact Or.inl (by decide)
  · obtain ⟨c, K', hc, rfl, hg⟩ := hK.strip h1
    rw [h4]
    rcases hc with rfl | rfl
    · exact absurd hg (not_isGroup_of_none h3' K')
    · rcases ih _ (hsum '1' h3) (stripHead '1' l) (Nat.le_refl _) h3 K' hg with h | h
      · left; rw [h]
      · right; simpa using h
  · rw [h4] at hne
    exact absurd rfl hne

theorem findPartialLCP_iff (l : List Str) (p : Str) (hp : p ≠ []) : (findPartialLCP l).1 = p ↔
    IsGroup l p ∧ ∀ K, IsGroup l K → K = p ∨ p < K := by
  constructor
  · rintro rfl
    exact ⟨isGroup_findPartialLCP l hp, findPartialLCP_least _ l (Nat.le_refl _) hp⟩
  · rintro ⟨h1, h2⟩
    have hne : (findPartialLCP l).1 ≠ [] := fun h => not_isGroup_of_none h p h1
    rcases findPartialLCP_least _ l (Nat.le_refl _) hne p h1 with h | h
    · exact h.symm
    · rcases h2 _ (isGroup_findPartialLCP l hne) with h' | h'
      · exact h'
      · exact absurd h' (Std.not_lt.mpr (Std.le_of_lt h))

/-! Replacing whole groups by their words leaves the other groups as they are. -/

/-- `l'` has the words of the groups `D` of `l` in place of the strings that start with them -/
structure Collapse (l : List Str) (D : List Str) (l' : List Str) : Prop where
  group : ∀ K ∈ D, IsGroup l K
  mem : ∀ s, s ∈ l' ↔ s ∈ D ∨ (s ∈ l ∧ ∀ K ∈ D, ¬ K <+: s)
  nodup : l'.Nodup

theorem two_le_countP {l : List Str} (hn : l.Nodup) (w : Str) :
    2 ≤ l.countP (fun s => decide (w <+: s)) ↔ ∃ a b, a ∈ l ∧ b ∈ l ∧ a ≠ b ∧ w <+: a ∧ w <+: b := by
  rw [List.countP_eq_length_filter]
  have hn' := hn.filter (fun s => decide (w <+: s))
  have hmem : ∀ a, a ∈ l.filter (fun s => decide (w <+: s)) ↔ a ∈ l ∧ w <+: a := by
    intro a; simp [List.mem_filter]
  generalize l.filter (fun s => decide (w <+: s)) = m at hn' hmem
  constructor
  · intro h
    match m, h with
    | a :: b :: r, _ =>
      have ha := (hmem a).mp (by simp)
      have hb := (hmem b).mp (by simp)
      refine ⟨a, b, ha.1, hb.1, ?_, ha.2, hb.2⟩
      rintro rfl
      simp at hn'
  · rintro ⟨a, b, ha, hb, hab, wa, wb⟩
    have ha := (hmem a).mpr ⟨ha, wa⟩
    have hb := (hmem b).mpr ⟨hb, wb⟩
    match m with
    | [] => simp at ha
    | [c] =>
      simp only [List.mem_singleton] at ha hb
      exact absurd (ha.trans hb.symm) hab
    | a :: b :: r => simp

theorem two_le_of_mem {l : List Str} {w a b : Str} (ha : a ∈ l) (hb : b ∈ l) (hab : a ≠ b)
    (pa : w <+: a) (pb : w <+: b) : 2 ≤ l.countP (fun s => decide (w <+: s)) := by
  rw [List.countP_eq_length_filter]
  have ha : a ∈ l.filter (fun s => decide (w <+: s)) := by simp [List.mem_filter, ha, pa]
  have hb : b ∈ l.filter (fun s => decide (w <+: s)) := by simp [List.mem_filter, hb, pb]
  generalize l.filter (fun s => decide (w <+: s)) = m at ha hb
  match m with
  | [] => simp at ha
  | [c] =>
    simp only [List.mem_singleton] at ha hb
    exact absurd (ha.trans hb.symm) hab
  | a :: b :: r => simp

theorem exists_of_two_le {l : List Str} {w : Str} (h : 2 ≤ l.countP (fun s => decide (w <+: s))) :
    ∃ s ∈ l, w <+: s := by
  obtain ⟨s, hs, hp⟩ := List.countP_pos_iff.mp (Nat.lt_of_lt_of_le (by decide : 0 < 2) h)
  exact ⟨s, hs, by simpa using hp⟩

theorem Collapse.noLonger {l D l' : List Str} (h : Collapse l D l') {w : Str}
    (hw : ∀ K ∈ D, K <+: w → K = w) : NoLonger l w ↔ NoLonger l' w := by
  constructor
  · intro hn q hq
    refine hn q fun s hs hp => ?_
    by_cases hd : ∃ K ∈ D, K <+: s
    · obtain ⟨K, hK, hKs⟩ := hd
      have hwK : w <+: K := by
        rcases prefix_cmp hp hKs with h1 | h1
        · exact h1
        · rw [hw K hK h1]; exact List.prefix_refl w
      exact (hq K ((h.mem K).mpr (Or.inl hK)) hwK).trans hKs
    · exact hq s ((h.mem s).mpr (Or.inr ⟨hs, fun K hK hp => hd ⟨K, hK, hp⟩⟩)) hp
  · intro hn q hq
    refine hn q fun s hs hp => ?_
    rcases (h.mem s).mp hs with hK | ⟨hs, -⟩
    · exact (h.group s hK).noLonger q fun r hr hpr => hq r hr (hp.trans hpr)
    · exact hq s hs hp

/-- only the word itself is left of a group -/
theorem Collapse.only {l D l' : List Str} (h : Collapse l D l') {K s : Str} (hK : K ∈ D) (hs : s ∈ l')
    (hp : K <+: s) : s = K := by
  rcases (h.mem s).mp hs with hD | ⟨-, hn⟩
  · exact (h.group s hD).anti (h.group K hK) (List.prefix_refl s) hp
  · exact absurd hp (hn K hK)

theorem Collapse.down {l D l' : List Str} (h : Collapse l D l') {K : Str} (hg : IsGroup l' K) :
    IsGroup l K ∧ K ∉ D := by
  obtain ⟨P, h0, h1, h2, h3, h4, h5, h6⟩ := hg
  obtain ⟨a, b, ha, hb, hab, pa, pb⟩ := (two_le_countP h.nodup P).mp h3
  have hP : ∀ K' ∈ D, ¬ K' <+: P := by
    intro K' hK' hp
    exact hab ((h.only hK' ha (hp.trans pa)).trans (h.only hK' hb (hp.trans pb)).symm)
  have hK : ∀ K' ∈ D, K' <+: K → K' = K := by
    intro K' hK' hp
    have hPK : P <+: K' := (prefix_cmp hp h1).resolve_left (hP K' hK')
    exact prefix_antisymm hp (h4 K' ((h.mem K').mpr (Or.inl hK')) hPK)
  have hw : ∀ w, w <+: P → ∀ K' ∈ D, K' <+: w → K' = w := fun w hwP K' hK' hp =>
    absurd (hp.trans hwP) (hP K' hK')
  refine ⟨⟨P, h0, h1, h2, ?_, ?_, (h.noLonger hK).mpr h5,
    fun w hwP hwn => (h.noLonger (hw w hwP)).mpr (h6 w hwP hwn)⟩, ?_⟩
  · by_cases hD : ∃ K' ∈ D, P <+: K'
    · obtain ⟨K', hK', hp⟩ := hD
      exact Nat.le_trans (h.group K' hK').count (countP_prefix_mono hp)
    · have hl : ∀ s ∈ l', P <+: s → s ∈ l := by
        intro s hs hp
        rcases (h.mem s).mp hs with h' | ⟨h', -⟩
        · exact absurd ⟨s, h', hp⟩ hD
        · exact h'
      exact two_le_of_mem (hl a ha pa) (hl b hb pb) hab pa pb
  · intro s hs hp
    by_cases hD : ∃ K' ∈ D, K' <+: s
    · obtain ⟨K', hK', hps⟩ := hD
      have hPK : P <+: K' := (prefix_cmp hps hp).resolve_left (hP K' hK')
      exact (h4 K' ((h.mem K').mpr (Or.inl hK')) hPK).trans hps
    · exact h4 s ((h.mem s).mpr (Or.inr ⟨hs, fun K hK hp => hD ⟨K, hK, hp⟩⟩)) hp
  · intro hD
    exact hab ((h.only hD ha (h4 a ha pa)).trans (h.only hD hb (h4 b hb pb)).symm)

theorem Collapse.up {l D l' : List Str} (hl : l.Nodup) (h : Collapse l D l') {K : Str} (hg : IsGroup l K)
    (hK : K ∉ D) : IsGroup l' K := by
  obtain ⟨P, h0, h1, h2, h3, h4, h5, h6⟩ := hg
  have hinc : ∀ K' ∈ D, ¬ (K' <+: P ∨ P <+: K') := by
    intro K' hK' hc
    obtain ⟨P', -, g1, g2, -, g4, g5, g6⟩ := h.group K' hK'
    have : K = K' := by
      refine IsGroup.node_eq h1 h2 h4 h5 h6 g1 g2 g4 g5 g6 ?_
      rcases hc with hc | hc
      · exact Or.inr (g1.trans hc)
      · exact prefix_cmp hc g1
    exact hK (this ▸ hK')
  have hmem : ∀ s, P <+: s → (s ∈ l' ↔ s ∈ l) := by
    intro s hp
    rw [h.mem]
    constructor
    · rintro (hD | ⟨hs, -⟩)
      · exact absurd (Or.inr hp) (hinc s hD)
      · exact hs
    · intro hs
      exact Or.inr ⟨hs, fun K' hK' hps => hinc K' hK' (prefix_cmp hps hp)⟩
  refine ⟨P, h0, h1, h2, ?_, fun s hs hp => h4 s ((hmem s hp).mp hs) hp, ?_, ?_⟩
  · obtain ⟨a, b, ha, hb, hab, pa, pb⟩ := (two_le_countP hl P).mp h3
    exact (two_le_countP h.nodup P).mpr ⟨a, b, (hmem a pa).mpr ha, (hmem b pb).mpr hb, hab, pa, pb⟩
  · refine (h.noLonger fun K' hK' hp => ?_).mp h5
    exact absurd (prefix_cmp hp h1) (hinc K' hK')
  · intro w hw hwn
    refine (h.noLonger fun K' hK' hp => ?_).mp (h6 w hw hwn)
    exact absurd (Or.inl (hp.trans hw)) (hinc K' hK')

end Gosstrak
