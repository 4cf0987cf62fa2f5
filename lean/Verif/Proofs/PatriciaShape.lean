import Verif.Proofs.PatriciaStore

/-! Where a trie has its nodes, and what happens when a filter is put inside an edge. -/
namespace Gosstrak

open PNode

/-! ### `meet` -/

theorem meet_left : ∀ a b : Str, meet a b <+: a
  | [], _ => by simp [meet]
  | _ :: _, [] => by simp [meet]
  | a :: s, b :: t => by
    unfold meet
    split
    · exact (List.cons_prefix_cons).mpr ⟨rfl, meet_left s t⟩
    · exact List.nil_prefix

theorem meet_right : ∀ a b : Str, meet a b <+: b
  | [], _ => by simp [meet]
  | _ :: _, [] => by simp [meet]
  | a :: s, b :: t => by
    unfold meet
    split
    · rename_i h; subst h; exact (List.cons_prefix_cons).mpr ⟨rfl, meet_right s t⟩
    · exact List.nil_prefix

theorem le_meet : ∀ {q a b : Str}, q <+: a → q <+: b → q <+: meet a b
  | [], _, _, _, _ => List.nil_prefix
  | c :: q, [], _, h, _ => by simp at h
  | c :: q, _ :: _, [], _, h => by simp at h
  | c :: q, a :: s, b :: t, h1, h2 => by
    rw [List.cons_prefix_cons] at h1 h2
    obtain ⟨rfl, h1⟩ := h1
    obtain ⟨rfl, h2⟩ := h2
    unfold meet
    rw [if_pos rfl, List.cons_prefix_cons]
    exact ⟨rfl, le_meet h1 h2⟩

theorem prefix_antisymm {a b : Str} (h1 : a <+: b) (h2 : b <+: a) : a = b :=
  h1.eq_of_length (Nat.le_antisymm h1.length_le h2.length_le)

theorem lcp_meet (a b : Str) : lcp [a, b] = meet a b := by
  obtain ⟨l1, l2, l3⟩ := lcp2_spec a b
  exact prefix_antisymm (le_meet l1 l2) (l3 _ (meet_left a b) (meet_right a b))

theorem meet_comm (a b : Str) : meet a b = meet b a :=
  prefix_antisymm (le_meet (meet_right a b) (meet_left a b)) (le_meet (meet_right b a) (meet_left b a))

theorem meet_of_prefix {a b : Str} (h : a <+: b) : meet a b = a :=
  prefix_antisymm (meet_left a b) (le_meet List.prefix_rfl h)

theorem meet_split {Q a b : Str} {c d : Char} (hcd : c ≠ d) (ha : Q ++ [c] <+: a) (hb : Q ++ [d] <+: b) :
    meet a b = Q := by
  obtain ⟨r, rfl⟩ := ha
  obtain ⟨s, rfl⟩ := hb
  induction Q with
  | nil => simp [meet, hcd]
  | cons x Q ih => simpa [meet] using ih

theorem meetAll_spec (l : List Str) (hne : l ≠ []) :
    (∀ s ∈ l, meetAll l <+: s) ∧ ∀ p, (∀ s ∈ l, p <+: s) → p <+: meetAll l := by
  cases l with
  | nil => exact absurd rfl hne
  | cons k ks =>
    simp only [meetAll]
    clear hne
    induction ks generalizing k with
    | nil => simp
    | cons a ks ih =>
      obtain ⟨i1, i2⟩ := ih (meet k a)
      simp only [List.foldl_cons]
      constructor
      · intro s hs
        have hm := i1 _ List.mem_cons_self
        rcases List.mem_cons.mp hs with rfl | hs
        · exact hm.trans (meet_left _ _)
        · rcases List.mem_cons.mp hs with rfl | hs
          · exact hm.trans (meet_right _ _)
          · exact i1 s (List.mem_cons_of_mem _ hs)
      · intro p hp
        apply i2
        intro s hs
        rcases List.mem_cons.mp hs with rfl | hs
        · exact le_meet (hp _ (by simp)) (hp _ (by simp))
        · exact hp s (by simp [hs])

theorem lcp_meetAll (l : List Str) : lcp l = meetAll l := by
  by_cases h : l = []
  · subst h; rfl
  · obtain ⟨a1, a2⟩ := lcp_spec l h
    obtain ⟨b1, b2⟩ := meetAll_spec l h
    exact prefix_antisymm (b2 _ a1) (a2 _ b1)

/-! ### nodes are closed under common prefixes -/

theorem child_prefix {P q : Str} {t : PNode} {c : Char} (ht : t ≠ .nil → t.str.head? = some c)
    (hq : q ∈ paths P t) : P ++ [c] <+: q := by
  have htn : t ≠ .nil := by rintro rfl; simp [paths] at hq
  have h := paths_prefix t P q hq
  have h2 := ht htn
  cases hs : t.str with
  | nil => rw [hs] at h2; simp at h2
  | cons d s =>
    rw [hs] at h h2
    simp at h2
    subst h2
    exact (show P ++ [d] <+: P ++ d :: s from ⟨s, by simp⟩).trans h

theorem paths_closed : ∀ (t : PNode) (P : Str), WF P t → ∀ a ∈ paths P t, ∀ b ∈ paths P t,
    meet a b ∈ paths P t
  | .nil, _, _, a, ha, _, _ => by simp [paths] at ha
  | .node u f one zero, P, ⟨_, _, hw1, hw0, hh1, hh0⟩, a, ha, b, hb => by
    have top : ∀ q ∈ paths P (.node u f one zero), P ++ f.str <+: q := fun q hq => paths_prefix _ P q hq
    simp only [paths, List.mem_cons, List.mem_append] at ha hb ⊢
    rcases ha with rfl | ha
    · left; exact meet_of_prefix (top b (by simpa [paths] using hb))
    rcases hb with rfl | hb
    · left; rw [meet_comm]; exact meet_of_prefix (top a (by simp [paths, ha]))
    rcases ha with ha | ha <;> rcases hb with hb | hb
    · exact Or.inr (Or.inl (paths_closed one _ hw1 a ha b hb))
    · exact Or.inl (meet_split (by decide) (child_prefix hh1 ha) (child_prefix hh0 hb))
    · exact Or.inl (meet_split (by decide) (child_prefix hh0 ha) (child_prefix hh1 hb))
    · exact Or.inr (Or.inr (paths_closed zero _ hw0 a ha b hb))

/-! ### the nodes of a fresh trie -/

theorem fold_lcp_max : ∀ (l : List Str) (acc q : Str), q ≠ [] → q <+: acc → (∀ p ∈ l, q <+: p) →
    q <+: l.foldl (fun acc p => if acc.length = 0 then p else lcp [p, acc]) acc
  | [], acc, q, _, h, _ => h
  | p :: l, acc, q, hq, h, hl => by
    have hacc : ¬ acc.length = 0 := by
      intro h0
      rw [List.length_eq_zero_iff.mp h0] at h
      exact hq (List.prefix_nil.mp h)
    simp only [List.foldl_cons, hacc, if_false]
    exact fold_lcp_max l _ q hq ((lcp2_spec p acc).2.2 q (hl p (by simp)) h) fun r hr => hl r (by simp [hr])

theorem branch_max (c : Char) (pre : Str) (keys : List Str) (q : Str) (hq : q ≠ [])
    (hall : ∀ p, p.head? = some c → pre ++ p ∈ keys → q <+: p)
    (hex : ∃ p, p.head? = some c ∧ pre ++ p ∈ keys) : q <+: branch c pre keys := by
  unfold branch
  rw [branch_eq]
  have hmem := fun p => mem_remainders (c := c) (pre := pre) (keys := keys) (p := p)
  cases hr : remainders c pre keys with
  | nil =>
    obtain ⟨p, hp, hk⟩ := hex
    have := (hmem p).mpr ⟨hk, hp⟩
    rw [hr] at this
    simp at this
  | cons a l =>
    rw [List.foldl_cons]
    simp only [List.length_nil, if_true]
    have hall' : ∀ p ∈ a :: l, q <+: p := by
      intro p hp
      rw [← hr, hmem] at hp
      exact hall p hp.2 hp.1
    exact fold_lcp_max l a q hq (hall' a (by simp)) fun p hp => hall' p (by simp [hp])

/-- every node below `P` is a key or has two branches -/
def Compact (keys : List Str) : Str → PNode → Prop
  | _, .nil => True
  | P, .node _ f one zero =>
    (P ++ f.str ∈ keys ∨ (one ≠ .nil ∧ zero ≠ .nil)) ∧ Compact keys (P ++ f.str) one ∧
      Compact keys (P ++ f.str) zero

theorem buildChild_nil (bsub : FlatSubs) (fuel : Nat) (pre : Str) (c : Char) :
    buildChild bsub fuel pre c = .nil ↔ ∀ p, p.head? = some c → pre ++ p ∉ mapKeys bsub := by
  unfold buildChild
  rcases branch_spec c pre (mapKeys bsub) with ⟨h1, h2⟩ | ⟨h1, h2, p, hp, hpre⟩
  · simp [h1]; exact h2
  · have hne : branch c pre (mapKeys bsub) ≠ [] := by intro h; simp [h] at h1
    have hl : (branch c pre (mapKeys bsub)).length ≠ 0 := by simpa using hne
    rw [if_pos hl]
    simp only [reduceCtorEq, false_iff]
    intro h
    refine h p ?_ hp
    obtain ⟨r, rfl⟩ := hpre
    rw [List.head?_append, h1]; rfl

theorem build_pair (bsub : FlatSubs) (fuel : Nat) (pre : Str) (h : maxKeyLength bsub < pre.length + fuel) :
    build bsub fuel pre =
      (buildChild bsub (fuel - 1) pre '1', buildChild bsub (fuel - 1) pre '0') := by
  cases fuel with
  | succ n => rw [build_succ]; rfl
  | zero =>
    have nobr : ∀ c, branch c pre (mapKeys bsub) = [] := by
      intro c
      rcases branch_spec c pre (mapKeys bsub) with h | ⟨-, -, p, hp, -⟩
      · exact h.1
      · have := key_len hp; simp at this; simp at h; omega
    simp [build, buildChild, nobr]

theorem build_compact (bsub : FlatSubs) (hb : ∀ e ∈ bsub, IsBitStr e.1) :
    ∀ (fuel : Nat) (pre : Str), maxKeyLength bsub < pre.length + fuel → ∀ c,
    Compact (mapKeys bsub) pre (buildChild bsub (fuel - 1) pre c) := by
  intro fuel
  induction fuel with
  | zero =>
    intro pre hlen c
    have : buildChild bsub (0 - 1) pre c = .nil := by
      rw [buildChild_nil]
      intro p hp hk
      have := key_len hk
      simp at this
      omega
    rw [this]
    trivial
  | succ fuel ih =>
    intro pre hlen c
    by_cases hnil : buildChild bsub (fuel + 1 - 1) pre c = .nil
    · rw [hnil]; trivial
    rcases branch_spec c pre (mapKeys bsub) with ⟨h1, h2⟩ | ⟨hhead, hall, p, hp, hpre⟩
    · exact absurd ((buildChild_nil _ _ _ _).mpr h2) hnil
    have hpc : p.head? = some c := by
      obtain ⟨r, rfl⟩ := hpre
      rw [List.head?_append, hhead]; rfl
    have hmax := fun q hq hall => branch_max c pre (mapKeys bsub) q hq hall ⟨p, hpc, hp⟩
    rw [Nat.add_sub_cancel, buildChild] at hnil ⊢
    generalize branch c pre (mapKeys bsub) = b at *
    have hbne : b ≠ [] := by rintro rfl; simp at hhead
    have hpos : 0 < b.length := List.length_pos_iff.mpr hbne
    have hcum : maxKeyLength bsub < (pre ++ b).length + fuel := by
      simp only [List.length_append]; omega
    rw [if_pos (by omega), build_pair _ _ _ hcum]
    refine ⟨?_, ih _ hcum '1', ih _ hcum '0'⟩
    simp only [newFilter_str]
    by_cases hkey : pre ++ b ∈ mapKeys bsub
    · exact Or.inl hkey
    right
    have hlong : ∀ q, q.head? = some c → pre ++ q ∈ mapKeys bsub → ∃ d r, (d = '0' ∨ d = '1') ∧ q = b ++ d :: r := by
      intro q hq hk
      obtain ⟨r, rfl⟩ := hall q hq hk
      cases r with
      | nil => simp at hk; exact absurd hk hkey
      | cons d r => exact ⟨d, r, key_bit hb hk d (by simp), rfl⟩
    have other : ∀ d e : Char, (∀ x, x = '0' ∨ x = '1' → x ≠ d → x = e) →
        buildChild bsub (fuel - 1) (pre ++ b) d = .nil → False := by
      intro d e hde hn
      rw [buildChild_nil] at hn
      have : b ++ [e] <+: b := by
        apply hmax _ (by simp)
        intro q hq hk
        obtain ⟨x, r, hx, rfl⟩ := hlong q hq hk
        have : x ≠ d := by
          rintro rfl
          exact hn (x :: r) rfl (by simpa using hk)
        rw [hde x hx this]
        exact ⟨r, by simp⟩
      have := this.length_le
      simp at this
      omega
    exact ⟨other '1' '0' (by rintro x (h | h) h2; exact h; exact absurd h h2),
      other '0' '1' (by rintro x (h | h) h2; exact absurd h h2; exact h)⟩

theorem compact_key {keys : List Str} : ∀ (t : PNode) (P : Str), t ≠ .nil → WF P t → Compact keys P t →
    ∃ k ∈ keys, P ++ t.str <+: k
  | .nil, _, h, _, _ => absurd rfl h
  | .node u f one zero, P, _, ⟨_, _, hw1, _, _, _⟩, ⟨h, h1, _⟩ => by
    simp only [str]
    rcases h with h | ⟨h, -⟩
    · exact ⟨_, h, List.prefix_rfl⟩
    · obtain ⟨k, hk, hp⟩ := compact_key one _ h hw1 h1
      exact ⟨k, hk, (List.prefix_append _ _).trans hp⟩

theorem compact_paths {keys : List Str} : ∀ (t : PNode) (P : Str), WF P t → Compact keys P t →
    ∀ q ∈ paths P t, q ∈ keys ∨ ∃ a ∈ keys, ∃ b ∈ keys, q = meet a b
  | .nil, _, _, _, q, hq => by simp [paths] at hq
  | .node u f one zero, P, ⟨_, _, hw1, hw0, hh1, hh0⟩, ⟨h, h1, h0⟩, q, hq => by
    simp only [paths, List.mem_cons, List.mem_append] at hq
    rcases hq with rfl | hq | hq
    · rcases h with h | ⟨n1, n0⟩
      · exact Or.inl h
      · right
        obtain ⟨a, ha, pa⟩ := compact_key one _ n1 hw1 h1
        obtain ⟨b, hb, pb⟩ := compact_key zero _ n0 hw0 h0
        refine ⟨a, ha, b, hb, (meet_split (c := '1') (d := '0') (by decide) ?_ ?_).symm⟩
        · obtain ⟨s, hs⟩ := List.head?_eq_some_iff.mp (hh1 n1)
          rw [hs] at pa
          exact (show P ++ f.str ++ ['1'] <+: P ++ f.str ++ '1' :: s from ⟨s, by simp⟩).trans pa
        · obtain ⟨s, hs⟩ := List.head?_eq_some_iff.mp (hh0 n0)
          rw [hs] at pb
          exact (show P ++ f.str ++ ['0'] <+: P ++ f.str ++ '0' :: s from ⟨s, by simp⟩).trans pb
    · exact compact_paths one _ hw1 h1 q hq
    · exact compact_paths zero _ hw0 h0 q hq

/-- the trie has its nodes and its content as the view says -/
def Shows (t : PNode) (v : TrieView) : Prop :=
  t ≠ .nil ∧ WF [] t ∧ (∀ k u, (k, u) ∈ content [] t ↔ v.stored k = some u) ∧
    ∀ q, q ∈ paths [] t ↔ q ∈ v.nodes

theorem shows_fresh (mk : Encoder) (sub : Subs) (hu : UrisNonEmpty sub)
    (hb : ∀ k u, (k, u) ∈ toByteSubscriptions mk sub → IsBitStr k) :
    Shows (newPatricia mk sub) (freshView mk sub) := by
  obtain ⟨h1, h2, h3, -⟩ := stores_fresh mk sub hu hb
  refine ⟨h1, h2, h3, ?_⟩
  have hb' : ∀ e ∈ toByteSubscriptions mk sub, IsBitStr e.1 := fun e he => hb e.1 e.2 he
  have hlen : ∀ bsub, maxKeyLength bsub < (lcp (mapKeys bsub)).length + (maxKeyLength bsub + 1) := by
    intro; omega
  have c1 := build_compact _ hb' _ _ (hlen _) '1'
  have c0 := build_compact _ hb' _ _ (hlen _) '0'
  have hroot : lcp (mapKeys (toByteSubscriptions mk sub)) ∈ paths [] (newPatricia mk sub) := by
    simp [newPatricia, newPatriciaFrom, paths, newFilter_str]
  have hkeys : ∀ k ∈ mapKeys (toByteSubscriptions mk sub), k ∈ paths [] (newPatricia mk sub) := by
    intro k hk
    by_cases hr : k = lcp (mapKeys (toByteSubscriptions mk sub))
    · rw [hr]; exact hroot
    · rw [mem_mapKeys] at hk
      obtain ⟨u, hu⟩ := (mapGet_isSome _ _).mpr hk
      exact content_paths _ [] (k, u) ((h3 k u).mpr (by simp [FreshMap, hr, hu]))
  intro q
  simp only [freshView, List.mem_append, List.mem_cons, List.mem_flatMap, List.mem_map]
  constructor
  · intro hq
    rw [newPatricia, newPatriciaFrom, build_pair _ _ _ (hlen _)] at hq h2
    obtain ⟨_, _, w1, w0, _, _⟩ := h2
    simp only [paths, List.nil_append, newFilter_str, List.mem_cons, List.mem_append] at hq w1 w0
    rcases hq with rfl | hq | hq
    · left; left; exact lcp_meetAll _
    · rcases compact_paths _ _ w1 c1 q hq with h | ⟨a, ha, b, hb, e⟩
      · exact Or.inl (Or.inr h)
      · exact Or.inr ⟨a, ha, b, hb, e.symm⟩
    · rcases compact_paths _ _ w0 c0 q hq with h | ⟨a, ha, b, hb, e⟩
      · exact Or.inl (Or.inr h)
      · exact Or.inr ⟨a, ha, b, hb, e.symm⟩
  · rintro ((rfl | h) | ⟨a, ha, b, hb, rfl⟩)
    · rw [← lcp_meetAll]; exact hroot
    · exact hkeys q h
    · exact paths_closed _ [] h2 a (hkeys a ha) b (hkeys b hb)

end Gosstrak
