import Verif.Proofs.ShelfFresh
import Verif.Proofs.Ids

/-! The lists of a splay tree over sequences of searches. -/
namespace Gosstrak

open KTree

/-! ### walks -/

theorem shelf_walk_unique {b : FlatSubs} {id : List Byte} {v : Shelf} {l ks : List Str}
    (h : Walk b id v l ks) : ∀ {ks' : List Str}, Walk b id v l ks' → ks = ks' := by
  induction h with
  | done => intro ks' h'; cases h'; rfl
  | miss h1 h2 _ ih =>
    intro ks' h'
    cases h' with
    | miss _ _ h3 => exact ih h3
    | hit h3 _ _ => exact absurd h3 h1
  | hit h1 h2 _ ih =>
    intro ks' h'
    cases h' with
    | miss h3 _ _ => exact absurd h1 h3
    | hit _ _ h3 => rw [ih h3]

theorem walk_nil {b : FlatSubs} {id : List Byte} {v : Shelf} {l : List Str} :
    Walk b id v l [] ↔ ∀ k ∈ l, ¬ OwnIn b id k ∧ ¬ OwnCut b id k := by
  induction l with
  | nil => exact ⟨by simp, fun _ => .done⟩
  | cons a l ih =>
    constructor
    · intro h
      cases h with
      | miss h1 h2 h3 =>
        intro k hk
        rcases List.mem_cons.mp hk with rfl | hk
        · exact ⟨h1, h2⟩
        · exact ih.mp h3 k hk
    · intro h
      exact .miss (h a (by simp)).1 (h a (by simp)).2 (ih.mpr fun k hk => h k (by simp [hk]))

theorem walk_cons {b : FlatSubs} {id : List Byte} {v : Shelf} {l : List Str} {k : Str} {ks : List Str} :
    Walk b id v l (k :: ks) ↔ ∃ pre r, l = pre ++ k :: r ∧ (∀ x ∈ pre, ¬ OwnIn b id x ∧ ¬ OwnCut b id x) ∧
      OwnIn b id k ∧ ¬ OwnCut b id k ∧ Walk b id v (v (some k)) ks := by
  constructor
  · intro h
    induction l with
    | nil => cases h
    | cons a l ih =>
      cases h with
      | miss h1 h2 h3 =>
        obtain ⟨pre, r, rfl, g1, g2⟩ := ih h3
        refine ⟨a :: pre, r, rfl, ?_, g2⟩
        intro x hx
        rcases List.mem_cons.mp hx with rfl | hx
        · exact ⟨h1, h2⟩
        · exact g1 x hx
      | hit h1 h2 h3 => exact ⟨[], l, rfl, by simp, h1, h2, h3⟩
  · rintro ⟨pre, r, rfl, h1, h2, h3, h4⟩
    induction pre with
    | nil => exact .hit h2 h3 h4
    | cons a pre ih =>
      exact .miss (h1 a (by simp)).1 (h1 a (by simp)).2 (ih fun x hx => h1 x (by simp [hx]))

theorem walk_own {b : FlatSubs} {id : List Byte} {v : Shelf} : ∀ {ks l : List Str}, Walk b id v l ks →
    ∀ k ∈ ks, OwnIn b id k ∧ ¬ OwnCut b id k
  | [], _, _, k, hk => by simp at hk
  | a :: ks, l, h, k, hk => by
    obtain ⟨pre, r, -, -, h1, h2, h3⟩ := walk_cons.mp h
    rcases List.mem_cons.mp hk with rfl | hk
    · exact ⟨h1, h2⟩
    · exact walk_own h3 k hk

theorem walk_head {b : FlatSubs} {id : List Byte} {v : Shelf} {ks l : List Str} {k : Str}
    (h : Walk b id v l ks) (hk : ks[0]? = some k) : k ∈ l := by
  cases ks with
  | nil => simp at hk
  | cons a ks =>
    simp at hk
    subst hk
    obtain ⟨pre, r, rfl, -⟩ := walk_cons.mp h
    simp

theorem walk_next {b : FlatSubs} {id : List Byte} {v : Shelf} : ∀ {ks l : List Str}, Walk b id v l ks →
    ∀ {i : Nat} {p k : Str}, ks[i]? = some p → ks[i + 1]? = some k → k ∈ v (some p)
  | [], _, _, _, _, _, hp, _ => by simp at hp
  | a :: ks, l, h, i, p, k, hp, hk => by
    obtain ⟨pre, r, -, -, -, -, h3⟩ := walk_cons.mp h
    cases i with
    | zero =>
      simp at hp hk
      subst hp
      exact walk_head h3 hk
    | succ i =>
      rw [List.getElem?_cons_succ] at hp hk
      exact walk_next h3 hp hk

theorem mem_moved {b : FlatSubs} {id : List Byte} {v : Shelf} : ∀ {ks l : List Str}, Walk b id v l ks →
    ∀ {x : Str}, x ∈ moved v l ks → (x ∈ l ∧ l.head? ≠ some x) ∨
      ∃ y, x ∈ v (some y) ∧ (v (some y)).head? ≠ some x
  | [], _, _, x, hx => by simp [moved] at hx
  | a :: ks, l, h, x, hx => by
    obtain ⟨pre, r, hl, -, -, -, h3⟩ := walk_cons.mp h
    rw [moved, List.mem_append] at hx
    rcases hx with hx | hx
    · split at hx
      · simp at hx
      · rename_i hne
        simp at hx
        subst hx
        exact Or.inl ⟨by rw [hl]; simp, hne⟩
    · rcases mem_moved h3 hx with ⟨g1, g2⟩ | g
      · exact Or.inr ⟨a, g1, g2⟩
      · exact Or.inr g

theorem moved_sublist (v : Shelf) : ∀ (ks l : List Str), (moved v l ks).Sublist ks
  | [], _ => List.Sublist.refl _
  | a :: ks, l => by
    rw [moved]
    have ih := moved_sublist v ks (v (some a))
    split
    · exact ih.cons _
    · exact ih.cons_cons _

theorem moved_of {v : Shelf} : ∀ {ks l : List Str} {i : Nat} {p k : Str}, ks[i]? = some p → ks[i + 1]? = some k →
    (v (some p)).head? ≠ some k → k ∈ moved v l ks
  | [], _, _, _, _, hp, _, _ => by simp at hp
  | a :: ks, l, i, p, k, hp, hk, hne => by
    rw [moved, List.mem_append]
    right
    rw [List.getElem?_cons_succ] at hk
    cases i with
    | zero =>
      simp at hp
      subst hp
      cases ks with
      | nil => simp at hk
      | cons c ks =>
        simp at hk
        subst hk
        rw [moved, if_neg hne]
        simp
    | succ i =>
      rw [List.getElem?_cons_succ] at hp
      exact moved_of hp hk hne

/-! ### what holds of the lists after any searches -/

structure ShelfInv (b : FlatSubs) (v : Shelf) : Prop where
  known : ∀ a, ∀ k ∈ v a, k ∈ mapKeys b
  child : ∀ a, ∀ k ∈ v (some a), parentOf b k = some a
  all : ∀ k ∈ mapKeys b, k ∈ v none ∨ ∃ a, k ∈ v (some a)
  apart : ∀ k a, k ∈ v none → k ∉ v (some a)
  head : ∀ a, (v (some a)).head? = (freshShelf b (some a)).head?

theorem mem_fresh (b : FlatSubs) (a : Option Str) (k : Str) :
    k ∈ freshShelf b a ↔ k ∈ mapKeys b ∧ parentOf b k = a := by
  unfold freshShelf
  rw [List.mem_filter, decide_eq_true_iff]

theorem inv_fresh (b : FlatSubs) : ShelfInv b (freshShelf b) where
  known a k h := ((mem_fresh b a k).mp h).1
  child a k h := ((mem_fresh b _ k).mp h).2
  all k h := by
    cases hp : parentOf b k with
    | none => exact Or.inl ((mem_fresh b _ k).mpr ⟨h, hp⟩)
    | some a => exact Or.inr ⟨a, (mem_fresh b _ k).mpr ⟨h, hp⟩⟩
  apart k a h h' := by
    have h1 := ((mem_fresh b _ k).mp h).2
    rw [((mem_fresh b _ k).mp h').2] at h1
    cases h1
  head _ := rfl

/-- the first of a list behind a filter never moves -/
theorem head_stays {b : FlatSubs} {v : Shelf} (hi : ShelfInv b v) {id : List Byte} {ks : List Str}
    (h : Walk b id v (v none) ks) {a x : Str} (hx : (v (some a)).head? = some x) :
    x ∉ moved v (v none) ks := by
  have hm : x ∈ v (some a) := List.mem_of_head? hx
  intro hmv
  rcases mem_moved h hmv with ⟨g, -⟩ | ⟨y, g1, g2⟩
  · exact hi.apart x a g hm
  · have : y = a := by
      have h1 := hi.child y x g1
      rw [hi.child a x hm] at h1
      injection h1 with h1
      exact h1.symm
    subst this
    exact g2 hx

theorem inv_after {b : FlatSubs} {v : Shelf} (hi : ShelfInv b v) {id : List Byte} {ks : List Str}
    (h : Walk b id v (v none) ks) : ShelfInv b (v.after ks) where
  known a k hk := by
    cases a with
    | none =>
      rw [Shelf.after, List.mem_append, List.mem_filter] at hk
      rcases hk with hk | hk
      · rcases mem_moved h hk with g | ⟨y, g, -⟩
        · exact hi.known _ k g.1
        · exact hi.known _ k g
      · exact hi.known _ k hk.1
    | some a =>
      rw [Shelf.after, List.mem_filter] at hk
      exact hi.known _ k hk.1
  child a k hk := by
    rw [Shelf.after, List.mem_filter] at hk
    exact hi.child a k hk.1
  all k hk := by
    by_cases hm : k ∈ moved v (v none) ks
    · exact Or.inl (List.mem_append_left _ hm)
    · rcases hi.all k hk with g | ⟨a, g⟩
      · exact Or.inl (List.mem_append_right _ (List.mem_filter.mpr ⟨g, by simpa using hm⟩))
      · exact Or.inr ⟨a, List.mem_filter.mpr ⟨g, by simpa using hm⟩⟩
  apart k a hk hk' := by
    rw [Shelf.after, List.mem_filter] at hk'
    rw [Shelf.after, List.mem_append, List.mem_filter] at hk
    rcases hk with hk | hk
    · have := hk'.2
      simp at this
      exact this hk
    · exact hi.apart k a hk.1 hk'.1
  head a := by
    rw [← hi.head a, Shelf.after]
    cases hl : v (some a) with
    | nil => rfl
    | cons x r =>
      have := head_stays hi h (a := a) (x := x) (by rw [hl]; rfl)
      rw [List.filter_cons_of_pos (by simpa using this)]
      rfl

/-- a tree, its lists, and what holds of them -/
def ShelfTree (b : FlatSubs) (t : SNode) (v : Shelf) : Prop :=
  ∃ T : KTree, t = T.erase b ∧ ShowsShelf T v ∧ ShelfInv b v

theorem shelfTree_fresh {b : FlatSubs} (hm : IsMap b) (hb : b ≠ []) (hbit : BitKeys b) :
    ∃ t, newSplayFrom b = some t ∧ ShelfTree b t (freshShelf b) := by
  obtain ⟨T, h1, h2⟩ := fresh_shelf hm hb hbit
  exact ⟨_, h1, T, rfl, h2, inv_fresh b⟩

theorem shelfTree_search {b : FlatSubs} (hm : IsMap b) (hbit : BitKeys b) {t : SNode} {v : Shelf}
    (h : ShelfTree b t v) (id : List Byte) :
    ((∀ ks, ¬ Walk b id v (v none) ks) → t.search id = none) ∧
    ∀ ks, Walk b id v (v none) ks → ∃ t', t.search id = some (ks.map (uriOf b), t') ∧
      ShelfTree b t' (v.after ks) ∧ (moved v (v none) ks = [] → t' = t) := by
  obtain ⟨T, rfl, h1, hi⟩ := h
  obtain ⟨s1, s2⟩ := shelf_search b h1 id
  have conv : ∀ ks, CWalk (ownTest b id) v (v none) ks ↔ Walk b id v (v none) ks :=
    fun ks => walk_iff hm hbit id hi.known (hi.known none)
  constructor
  · intro hno
    cases hs : (T.erase b).search id with
    | none => rfl
    | some r =>
      obtain ⟨ks, _, g, -⟩ := s2 r.1 r.2 hs
      exact absurd ((conv ks).mp g) (hno ks)
  · intro ks hw
    cases hs : (T.erase b).search id with
    | none => exact absurd ((conv ks).mpr hw) (s1 hs ks)
    | some r =>
      obtain ⟨ks', T', g1, g2, g3, g4, g5, -⟩ := s2 r.1 r.2 hs
      have := shelf_walk_unique hw ((conv ks').mp g1)
      subst this
      refine ⟨r.2, ?_, ⟨T', g3, g4, inv_after hi hw⟩, ?_⟩
      · rw [← g2]
      · intro h0; rw [g3, g5 h0]

theorem shelfTree_run {b : FlatSubs} (hm : IsMap b) (hbit : BitKeys b) : ∀ (ids : List (List Byte)) {t : SNode}
    {v : Shelf}, ShelfTree b t v →
    ((∀ v', ¬ ShelfRun b v ids v') → t.searches ids = none) ∧
    ∀ v', ShelfRun b v ids v' → ∃ t', t.searches ids = some t' ∧ ShelfTree b t' v'
  | [], t, v, h => by
    refine ⟨fun hno => absurd rfl (hno v), ?_⟩
    rintro v' rfl
    exact ⟨t, rfl, h⟩
  | id :: ids, t, v, h => by
    obtain ⟨s1, s2⟩ := shelfTree_search hm hbit h id
    constructor
    · intro hno
      by_cases hw : ∃ ks, Walk b id v (v none) ks
      · obtain ⟨ks, hw⟩ := hw
        obtain ⟨t', a1, a2, -⟩ := s2 ks hw
        have := (shelfTree_run hm hbit ids a2).1 fun v' hv' => hno v' ⟨ks, hw, hv'⟩
        unfold SNode.searches at this ⊢
        rw [List.foldlM_cons, a1]
        exact this
      · have := s1 fun ks hk => hw ⟨ks, hk⟩
        unfold SNode.searches
        rw [List.foldlM_cons, this]
        rfl
    · rintro v' ⟨ks, hw, hr⟩
      obtain ⟨t', a1, a2, -⟩ := s2 ks hw
      obtain ⟨t'', b1, b2⟩ := (shelfTree_run hm hbit ids a2).2 v' hr
      refine ⟨t'', ?_, b2⟩
      unfold SNode.searches at b1 ⊢
      rw [List.foldlM_cons, a1]
      exact b1

/-- searches that succeed are a run through the lists -/
theorem shelfTree_of_run {b : FlatSubs} (hm : IsMap b) (hbit : BitKeys b) {ids : List (List Byte)} {t t' : SNode}
    {v : Shelf} (h : ShelfTree b t v) (hr : t.searches ids = some t') :
    ∃ v', ShelfRun b v ids v' ∧ ShelfTree b t' v' := by
  obtain ⟨h1, h2⟩ := shelfTree_run hm hbit ids h
  by_cases hv : ∃ v', ShelfRun b v ids v'
  · obtain ⟨v', hv⟩ := hv
    obtain ⟨t'', a1, a2⟩ := h2 v' hv
    rw [hr] at a1
    cases a1
    exact ⟨v', hv, a2⟩
  · rw [h1 fun v' hv' => hv ⟨v', hv'⟩] at hr
    cases hr

theorem shelfTree_of_search {b : FlatSubs} (hm : IsMap b) (hbit : BitKeys b) {id : List Byte} {t t' : SNode}
    {us : List Str} {v : Shelf} (h : ShelfTree b t v) (hs : t.search id = some (us, t')) :
    ∃ ks, Walk b id v (v none) ks ∧ us = ks.map (uriOf b) ∧ ShelfTree b t' (v.after ks) := by
  obtain ⟨h1, h2⟩ := shelfTree_search hm hbit h id
  by_cases hv : ∃ ks, Walk b id v (v none) ks
  · obtain ⟨ks, hv⟩ := hv
    obtain ⟨t'', a1, a2, -⟩ := h2 ks hv
    rw [hs] at a1
    cases a1
    exact ⟨ks, hv, rfl, a2⟩
  · rw [h1 fun ks hk => hv ⟨ks, hk⟩] at hs
    cases hs

theorem shelfTree_answers {b : FlatSubs} (hm : IsMap b) (hbit : BitKeys b) {id : List Byte} {t : SNode}
    {v : Shelf} (h : ShelfTree b t v) (hid : id ≠ []) (hfit : ∀ k ∈ mapKeys b, k.length ≤ 8 * id.length) :
    ∃ ks, Walk b id v (v none) ks := by
  obtain ⟨T, rfl, h1, hi⟩ := h
  have hk : ∀ k ∈ T.keys, k ∈ mapKeys b := by
    intro k hk
    rcases keys_placed T hk with g | ⟨e, he, g⟩
    · exact hi.known none k (h1.2.2.1 ▸ g)
    · exact hi.known (some e.1) k (h1.2.2.2.1 e he ▸ g)
  have hw := walk_answers (ownTest b id) T true h1.1 fun k hk' hn => by
    have := ((ownTest_spec hm (hbit k (hk k hk')) id).1.mpr hn).1
    rcases this with g | g
    · exact hid g
    · exact absurd (hfit k (hk k hk')) (Nat.not_le.mpr g)
  have hs : (T.erase b).search id ≠ none := by
    unfold SNode.search
    rw [erase_walk]
    cases hx : T.walk (ownTest b id) true with
    | none => exact absurd hx hw
    | some r => simp
  cases hx : (T.erase b).search id with
  | none => exact absurd hx hs
  | some r =>
    obtain ⟨ks, g, -⟩ := shelfTree_of_search hm hbit ⟨T, rfl, h1, hi⟩ (us := r.1) (t' := r.2) hx
    exact ⟨ks, g⟩

/-- the list behind a filter only loses filters -/
theorem run_shrinks {b : FlatSubs} : ∀ {ids : List (List Byte)} {v v' : Shelf}, ShelfRun b v ids v' →
    ∀ {a k : Str}, k ∈ v' (some a) → k ∈ v (some a)
  | [], v, v', h, a, k, hk => by rw [show v' = v from h] at hk; exact hk
  | id :: ids, v, v', ⟨ks, _, h⟩, a, k, hk => by
    have := run_shrinks h hk
    rw [Shelf.after, List.mem_filter] at this
    exact this.1

/-! ### chains of parents -/

theorem chain_prefix {b : FlatSubs} (hm : IsMap b) {ks : List Str}
    (hc : ∀ (i : Nat) (p k : Str), ks[i]? = some p → ks[i + 1]? = some k → parentOf b k = some p) :
    ∀ {j i : Nat} {p q : Str}, i ≤ j → ks[i]? = some p → ks[j]? = some q → p <+: q
  | j, i, p, q, hij, hp, hq => by
    rcases Nat.lt_or_ge i j with h | h
    · cases j with
      | zero => omega
      | succ j =>
        have hj : j < ks.length := by
          have := (List.getElem?_eq_some_iff.mp hq).1
          omega
        have ih := chain_prefix hm hc (j := j) (i := i) (by omega) hp (List.getElem?_eq_getElem hj)
        have := hc j _ q (List.getElem?_eq_getElem hj) hq
        exact ih.trans (parentOf_some hm this).2.1
    · have : i = j := by omega
      subst this
      rw [hp, Option.some.injEq] at hq
      rw [hq]; exact List.prefix_rfl

theorem walk_parents {b : FlatSubs} {v : Shelf} (hi : ShelfInv b v) {id : List Byte} {l ks : List Str}
    (h : Walk b id v l ks) (i : Nat) (p k : Str) (hp : ks[i]? = some p) (hk : ks[i + 1]? = some k) :
    parentOf b k = some p := hi.child p k (walk_next h hp hk)

theorem walk_known {b : FlatSubs} {v : Shelf} (hi : ShelfInv b v) {id : List Byte} : ∀ {ks l : List Str},
    Walk b id v l ks → (∀ k ∈ l, k ∈ mapKeys b) → ∀ k ∈ ks, k ∈ mapKeys b
  | [], _, _, _, k, hk => by simp at hk
  | a :: ks, l, h, hl, k, hk => by
    obtain ⟨pre, r, hlr, -, -, -, h3⟩ := walk_cons.mp h
    rcases List.mem_cons.mp hk with rfl | hk
    · exact hl k (by rw [hlr]; simp)
    · exact walk_known hi h3 (hi.known _) k hk

/-- if a filter and its child are found together then the child is behind the filter -/
theorem found_together {b : FlatSubs} (hm : IsMap b) {v : Shelf} (hi : ShelfInv b v) {id : List Byte} {l ks : List Str}
    (h : Walk b id v l ks) {a k : Str} (hp : parentOf b k = some a) (ha : a ∈ ks) (hk : k ∈ ks) :
    ∃ i, ks[i]? = some a ∧ ks[i + 1]? = some k := by
  obtain ⟨i, hia⟩ := List.mem_iff_getElem?.mp ha
  obtain ⟨j, hjk⟩ := List.mem_iff_getElem?.mp hk
  obtain ⟨-, q1, q2, -⟩ := parentOf_some hm hp
  cases j with
  | zero =>
    have := chain_prefix hm (walk_parents hi h) (Nat.zero_le i) hjk hia
    exact absurd (prefix_antisymm q1 this) q2
  | succ j =>
    have hj : j < ks.length := by
      have := (List.getElem?_eq_some_iff.mp hjk).1
      omega
    have hpj := List.getElem?_eq_getElem hj
    have := walk_parents hi h j _ k hpj hjk
    rw [hp] at this
    injection this with this
    exact ⟨j, by rw [this]; exact hpj, hjk⟩

theorem bits_own {b : FlatSubs} {id : List Byte} {k : Str} (h : k <+: bitsOf id) : OwnIn b id k := by
  intro i _ hi
  rw [List.prefix_iff_getElem?] at h
  rw [h i hi, List.getElem?_eq_getElem hi]

/-- a filter starts the tag if its parent does and the tag has its own part -/
theorem own_bits {b : FlatSubs} {id : List Byte} {k : Str} (h : OwnIn b id k)
    (hp : ∀ p, parentOf b k = some p → p <+: k ∧ p <+: bitsOf id) : k <+: bitsOf id := by
  rw [List.prefix_iff_getElem?]
  intro i hi
  rw [← List.getElem?_eq_getElem hi]
  by_cases ho : ownStart b k ≤ i
  · exact h i ho hi
  · unfold ownStart at ho
    cases hx : parentOf b k with
    | none => rw [hx] at ho; simp at ho
    | some p =>
      rw [hx] at ho
      simp only [Option.map_some, Option.getD_some] at ho
      obtain ⟨h1, h2⟩ := hp p hx
      rw [List.prefix_iff_getElem?] at h1 h2
      rw [h1 i (by omega), h2 i (by omega)]

/-- siblings are not prefixes of each other -/
theorem siblings {b : FlatSubs} (hm : IsMap b) {k x : Str} (hk : k ∈ mapKeys b)
    (hp : parentOf b k = parentOf b x) (hne : k ≠ x) : ¬ k <+: x := by
  intro h
  cases hx : parentOf b x with
  | none => exact hne (parentOf_none.mp hx k hk h)
  | some a =>
    have h1 := (parentOf_some hm hx).2.2.2 k hk h hne
    rw [hx] at hp
    obtain ⟨-, g1, g2, -⟩ := parentOf_some hm hp
    exact g2 (prefix_antisymm g1 h1)

/-- a tag that has the own part of a filter passes by its siblings -/
theorem sibling_miss {b : FlatSubs} (hm : IsMap b) {id : List Byte} {k x : Str} (hk : k ∈ mapKeys b)
    (hx : x ∈ mapKeys b) (hp : parentOf b k = parentOf b x) (hne : k ≠ x) (h1 : OwnIn b id k)
    (h2 : ¬ OwnCut b id k) : ¬ OwnIn b id x ∧ ¬ OwnCut b id x := by
  have hlen : k.length ≤ 8 * id.length := by
    apply Classical.byContradiction
    intro h
    exact h2 ⟨Or.inr (by omega), fun i a1 a2 _ => h1 i a1 a2⟩
  have hos : ownStart b k = ownStart b x := by unfold ownStart; rw [hp]
  have key : ¬ ∀ i, ownStart b x ≤ i → i < x.length → i < 8 * id.length → (bitsOf id)[i]? = x[i]? := by
    intro h3
    have agree : ∀ i, i < k.length → i < x.length → k[i]? = x[i]? := by
      intro i g1 g2
      by_cases ho : ownStart b x ≤ i
      · rw [← h1 i (by omega) g1, h3 i ho g2 (by omega)]
      · unfold ownStart at ho
        cases hq : parentOf b x with
        | none => rw [hq] at ho; simp at ho
        | some p =>
          rw [hq] at ho
          simp only [Option.map_some, Option.getD_some] at ho
          have e1 := (parentOf_some hm hq).2.1
          have e2 := (parentOf_some hm (hp.trans hq)).2.1
          rw [List.prefix_iff_getElem?] at e1 e2
          rw [e1 i (by omega), e2 i (by omega)]
    rcases Nat.le_total k.length x.length with g | g
    · apply siblings hm hk hp hne
      rw [List.prefix_iff_getElem?]
      intro i hi
      rw [← agree i hi (by omega), List.getElem?_eq_getElem hi]
    · apply siblings hm hx hp.symm (Ne.symm hne)
      rw [List.prefix_iff_getElem?]
      intro i hi
      rw [agree i (by omega) hi, List.getElem?_eq_getElem hi]
  exact ⟨fun h => key fun i a1 a2 _ => h i a1 a2, fun h => key h.2⟩

/-! ### searching for the same tag again -/

theorem settle_below {b : FlatSubs} (hm : IsMap b) {v : Shelf} (hi : ShelfInv b v) {id : List Byte} {ks0 : List Str}
    (h0 : Walk b id v (v none) ks0) : ∀ (ks : List Str) (a : Str), Walk b id v (v (some a)) ks →
    (∀ x ∈ moved v (v (some a)) ks, x ∈ moved v (v none) ks0) →
    ∃ ks1, Walk b id (v.after ks0) (v.after ks0 (some a)) ks1 ∧ ks1 <+: ks ∧
      moved (v.after ks0) (v.after ks0 (some a)) ks1 = []
  | [], a, h, _ => by
    refine ⟨[], ?_, List.prefix_rfl, rfl⟩
    rw [walk_nil] at h ⊢
    intro k hk
    rw [Shelf.after, List.mem_filter] at hk
    exact h k hk.1
  | k :: ks, a, h, hsub => by
    obtain ⟨pre, r, hl, h1, h2, h3, h4⟩ := walk_cons.mp h
    by_cases hh : (v (some a)).head? = some k
    · have hst := head_stays hi h0 hh
      obtain ⟨ks1, i1, i2, i3⟩ := settle_below hm hi h0 ks k h4 (by
        intro x hx
        apply hsub
        rw [moved]
        exact List.mem_append_right _ hx)
      obtain ⟨r', hr'⟩ : ∃ r', v.after ks0 (some a) = k :: r' := by
        rw [Shelf.after]
        cases hv : v (some a) with
        | nil => rw [hv] at hh; simp at hh
        | cons y r' =>
          rw [hv] at hh
          simp at hh
          subst hh
          exact ⟨_, List.filter_cons_of_pos (by simpa using hst)⟩
      rw [hr']
      refine ⟨k :: ks1, .hit h2 h3 i1, ?_, ?_⟩
      · exact (List.prefix_cons_inj k).mpr i2
      · rw [moved, if_pos List.head?_cons, i3]; rfl
    · refine ⟨[], ?_, List.nil_prefix, rfl⟩
      rw [walk_nil]
      intro x hx
      rw [Shelf.after, List.mem_filter] at hx
      have hkm : k ∈ moved v (v none) ks0 := by
        apply hsub
        rw [moved, if_neg hh]
        simp
      have hxk : k ≠ x := by
        rintro rfl
        have := hx.2
        simp at this
        exact this hkm
      have hkv : k ∈ v (some a) := by rw [hl]; simp
      exact sibling_miss hm (hi.known _ k hkv) (hi.known _ x hx.1)
        ((hi.child a k hkv).trans (hi.child a x hx.1).symm) hxk h2 h3

theorem settle_top {b : FlatSubs} (hm : IsMap b) {v : Shelf} (hi : ShelfInv b v) {id : List Byte} {ks0 : List Str}
    (h0 : Walk b id v (v none) ks0) : ∀ (ks l : List Str) (k1 : Str) (rest : List Str), Walk b id v l ks →
    moved v l ks = k1 :: rest → (∀ x ∈ moved v l ks, x ∈ moved v (v none) ks0) →
    ∃ ks1, k1 :: ks1 <:+: ks ∧ OwnIn b id k1 ∧ ¬ OwnCut b id k1 ∧
      Walk b id (v.after ks0) (v.after ks0 (some k1)) ks1 ∧
      moved (v.after ks0) (v.after ks0 (some k1)) ks1 = []
  | [], _, _, _, _, hm', _ => by simp [moved] at hm'
  | k :: ks, l, k1, rest, h, hmv, hsub => by
    obtain ⟨pre, r, hl, h1, h2, h3, h4⟩ := walk_cons.mp h
    have hsub' : ∀ x ∈ moved v (v (some k)) ks, x ∈ moved v (v none) ks0 := by
      intro x hx
      apply hsub
      rw [moved]
      exact List.mem_append_right _ hx
    by_cases hh : l.head? = some k
    · rw [moved, if_pos hh, List.nil_append] at hmv
      obtain ⟨ks1, g1, g2⟩ := settle_top hm hi h0 ks _ k1 rest h4 hmv hsub'
      obtain ⟨x, y, hxy⟩ := g1
      exact ⟨ks1, ⟨k :: x, y, by rw [List.cons_append, List.cons_append, hxy]⟩, g2⟩
    · rw [moved, if_neg hh] at hmv
      simp only [List.cons_append, List.nil_append, List.cons.injEq] at hmv
      obtain ⟨rfl, -⟩ := hmv
      obtain ⟨ks1, g1, ⟨y, g2⟩, g3⟩ := settle_below hm hi h0 ks k h4 hsub'
      exact ⟨ks1, ⟨[], y, by simp [g2]⟩, h2, h3, g1, g3⟩

theorem shelf_after_nil {v : Shelf} {ks : List Str} (h : moved v (v none) ks = []) : v.after ks = v := by
  funext a
  cases a <;> simp [Shelf.after, h]

theorem settle {b : FlatSubs} (hm : IsMap b) {v : Shelf} (hi : ShelfInv b v) {id : List Byte} {ks : List Str}
    (h : Walk b id v (v none) ks) :
    ∃ ks1, Walk b id (v.after ks) (v.after ks none) ks1 ∧ ks1 <:+: ks ∧ (ks1 = [] → ks = []) ∧
      moved (v.after ks) (v.after ks none) ks1 = [] := by
  cases hmv : moved v (v none) ks with
  | nil =>
    rw [shelf_after_nil hmv]
    exact ⟨ks, h, List.infix_rfl, fun h => h, hmv⟩
  | cons k1 rest =>
    obtain ⟨ks1, g1, g2, g3, g4, g5⟩ := settle_top hm hi h ks _ k1 rest h hmv fun _ hx => hx
    have hn : v.after ks none = k1 :: (rest ++ (v none).filter (· ∉ moved v (v none) ks)) := by
      rw [Shelf.after, hmv]
      rfl
    refine ⟨k1 :: ks1, ?_, g1, by simp, ?_⟩
    · rw [hn]; exact .hit g2 g3 g4
    · rw [hn, moved, if_pos List.head?_cons, g5]; rfl

end Gosstrak
