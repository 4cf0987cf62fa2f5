import Verif.Proofs.ShelfRun
import Verif.Proofs.SplayExact

/-! Forks, and the reports of splay trees whose lists were rearranged. -/
namespace Gosstrak

theorem uriOf_mem {b : FlatSubs} {k : Str} (h : k ∈ mapKeys b) : (k, uriOf b k) ∈ b := by
  unfold uriOf
  rw [mem_mapKeys] at h
  obtain ⟨u, hu⟩ := (mapGet_isSome _ _).mpr h
  rw [hu]
  exact mapGet_mem hu

theorem uriOf_eq {b : FlatSubs} (hm : IsMap b) {k u : Str} (h : (k, u) ∈ b) : uriOf b k = u := by
  unfold uriOf
  rw [mapGet_of_mem hm h]
  rfl

theorem key_of_mem {b : FlatSubs} {k u : Str} (h : (k, u) ∈ b) : k ∈ mapKeys b := by
  rw [mem_mapKeys]
  exact List.mem_map.mpr ⟨_, h, rfl⟩

/-- the child of `a` on the way to `x` -/
theorem child_toward {b : FlatSubs} (hm : IsMap b) {a : Str} (ha : a ∈ mapKeys b) : ∀ (n : Nat) (x : Str),
    x.length ≤ n → x ∈ mapKeys b → Extends a x → ∃ k ∈ mapKeys b, parentOf b k = some a ∧ k <+: x
  | n, x, hn, hx, ⟨h1, h2⟩ => by
    cases hp : parentOf b x with
    | none => exact absurd (parentOf_none.mp hp a ha h1) h2
    | some p =>
      obtain ⟨g1, g2, g3, g4⟩ := parentOf_some hm hp
      by_cases he : a = p
      · exact ⟨x, hx, by rw [hp, he], List.prefix_rfl⟩
      · have hlt : p.length < x.length := by
          rcases Nat.lt_or_ge p.length x.length with h | h
          · exact h
          · exact absurd (g2.eq_of_length (Nat.le_antisymm g2.length_le h)) g3
        cases n with
        | zero => omega
        | succ n =>
          obtain ⟨k, e1, e2, e3⟩ := child_toward hm ha n p (by omega) g1 ⟨g4 a ha h1 h2, he⟩
          exact ⟨k, e1, e2, e3.trans g2⟩

theorem forks_iff {b : FlatSubs} (hm : IsMap b) (a : Str) :
    Forks (fun k u => (k, u) ∈ b) a ↔ ∃ k ∈ mapKeys b, ∃ k' ∈ mapKeys b,
      parentOf b k = some a ∧ parentOf b k' = some a ∧ k ≠ k' := by
  constructor
  · rintro ⟨⟨u, hu⟩, x, y, ux, uy, hx, hy, hax, hay, hno⟩
    have ha := key_of_mem hu
    obtain ⟨k, h1, h2, h3⟩ := child_toward hm ha _ x (Nat.le_refl _) (key_of_mem hx) hax
    obtain ⟨k', h1', h2', h3'⟩ := child_toward hm ha _ y (Nat.le_refl _) (key_of_mem hy) hay
    refine ⟨k, h1, k', h1', h2, h2', ?_⟩
    rintro rfl
    obtain ⟨-, g1, g2, -⟩ := parentOf_some hm h2
    exact hno k _ (uriOf_mem h1) ⟨g1, g2⟩ ⟨h3, h3'⟩
  · rintro ⟨k, hk, k', hk', h1, h2, hne⟩
    obtain ⟨p1, p2, p3, p4⟩ := parentOf_some hm h1
    obtain ⟨-, q2, q3, q4⟩ := parentOf_some hm h2
    refine ⟨⟨_, uriOf_mem p1⟩, k, k', _, _, uriOf_mem hk, uriOf_mem hk', ⟨p2, p3⟩, ⟨q2, q3⟩, ?_⟩
    rintro c w hc ⟨c1, c2⟩ ⟨d1, d2⟩
    have e1 : c = k := Classical.byContradiction fun hn =>
      c2 (prefix_antisymm c1 (p4 c (key_of_mem hc) d1 hn))
    have e2 : c = k' := Classical.byContradiction fun hn =>
      c2 (prefix_antisymm c1 (q4 c (key_of_mem hc) d2 hn))
    exact hne (e1.symm.trans e2)

/-- a filter that starts the tag has a prefix in the outermost list -/
theorem outer_prefix {b : FlatSubs} (hm : IsMap b) {v : Shelf} (hi : ShelfInv b v) : ∀ (n : Nat) (k : Str),
    k.length ≤ n → k ∈ mapKeys b → ∃ p ∈ v none, p <+: k
  | n, k, hn, hk => by
    rcases hi.all k hk with h | ⟨a, h⟩
    · exact ⟨k, h, List.prefix_rfl⟩
    · obtain ⟨g1, g2, g3, -⟩ := parentOf_some hm (hi.child a k h)
      have hlt : a.length < k.length := by
        rcases Nat.lt_or_ge a.length k.length with h | h
        · exact h
        · exact absurd (g2.eq_of_length (Nat.le_antisymm g2.length_le h)) g3
      cases n with
      | zero => omega
      | succ n =>
        obtain ⟨p, h1, h2⟩ := outer_prefix hm hi n a (by omega) g1
        exact ⟨p, h1, h2.trans g2⟩

/-- the filters found all start the tag, or none does -/
theorem walk_truth {b : FlatSubs} (hm : IsMap b) {v : Shelf} (hi : ShelfInv b v) {id : List Byte} {ks : List Str}
    (h : Walk b id v (v none) ks) {k0 : Str} (h0 : ks[0]? = some k0) :
    (k0 <+: bitsOf id → ∀ k ∈ ks, k <+: bitsOf id) ∧ (¬ k0 <+: bitsOf id → ∀ k ∈ ks, ¬ k <+: bitsOf id) := by
  constructor
  · intro hb k hk
    obtain ⟨j, hj⟩ := List.mem_iff_getElem?.mp hk
    clear hk
    induction j generalizing k with
    | zero =>
      rw [h0, Option.some.injEq] at hj
      rw [← hj]; exact hb
    | succ j ih =>
      have hl : j < ks.length := by
        have := (List.getElem?_eq_some_iff.mp hj).1
        omega
      have hpj := List.getElem?_eq_getElem hl
      have hpar := walk_parents hi h j _ k hpj hj
      refine own_bits (walk_own h k (List.mem_iff_getElem?.mpr ⟨_, hj⟩)).1 ?_
      intro p hp
      rw [hpar, Option.some.injEq] at hp
      subst hp
      exact ⟨(parentOf_some hm hpar).2.1, ih _ hpj⟩
  · intro hb k hk hkb
    obtain ⟨j, hj⟩ := List.mem_iff_getElem?.mp hk
    exact hb ((chain_prefix hm (walk_parents hi h) (Nat.zero_le j) h0 hj).trans hkb)

/-- Without a fork at a non-empty filter the outermost list holds only filters that are compared from
    the first bit. -/
theorem run_outer {b : FlatSubs} (hm : IsMap b)
    (hnf : ∀ a, a ≠ [] → ¬ Forks (fun k u => (k, u) ∈ b) a) : ∀ {ids : List (List Byte)} {v v' : Shelf},
    ShelfInv b v → (∀ k ∈ v none, ∀ p, parentOf b k = some p → p = []) → ShelfRun b v ids v' →
    ShelfInv b v' ∧ ∀ k ∈ v' none, ∀ p, parentOf b k = some p → p = []
  | [], v, v', hi, h, hr => by rw [show v' = v from hr]; exact ⟨hi, h⟩
  | id :: ids, v, v', hi, h, ⟨ks, hw, hr⟩ => by
    refine run_outer hm hnf (inv_after hi hw) ?_ hr
    intro k hk p hp
    rw [Shelf.after, List.mem_append, List.mem_filter] at hk
    rcases hk with hk | hk
    · rcases mem_moved hw hk with g | ⟨y, g1, g2⟩
      · exact h k g.1 p hp
      · have hy := hi.child y k g1
        rw [hp, Option.some.injEq] at hy
        subst hy
        apply Classical.byContradiction
        intro hne
        apply hnf p hne
        rw [forks_iff hm]
        cases hh : (v (some p)).head? with
        | none =>
          rw [List.head?_eq_none_iff] at hh
          rw [hh] at g1
          simp at g1
        | some x =>
          have hx : x ∈ v (some p) := List.mem_of_head? hh
          refine ⟨k, hi.known _ k g1, x, hi.known _ x hx, hp, hi.child p x hx, ?_⟩
          rintro rfl
          exact g2 hh
    · exact h k hk.1 p hp

/-- the opposite of every bit -/
def flipBits (s : Str) : Str := s.map fun c => if c = '0' then '1' else '0'

theorem flip_bits (s : Str) : IsBitStr (flipBits s) := by
  intro c hc
  unfold flipBits at hc
  obtain ⟨d, -, rfl⟩ := List.mem_map.mp hc
  split
  · right; rfl
  · left; rfl

theorem flip_ne {s : Str} (hs : IsBitStr s) {i : Nat} (hi : i < s.length) : (flipBits s)[i]? ≠ s[i]? := by
  unfold flipBits
  rw [List.getElem?_map, List.getElem?_eq_getElem hi, Option.map_some]
  rcases hs s[i] (List.getElem_mem hi) with h | h <;> rw [h] <;> decide

/-- A child that is not the first of its siblings, behind a non-empty filter, can be made to be found
    for a tag that does not start with it. -/
theorem false_hit {b : FlatSubs} (hm : IsMap b) (hbit : BitKeys b) {t0 : SNode} (ht : ShelfTree b t0 (freshShelf b))
    (hall : ∀ id : List Byte, id ≠ [] → (∀ k ∈ mapKeys b, k.length ≤ 8 * id.length) →
      ∀ ks, Walk b id (freshShelf b) (freshShelf b none) ks → ∀ k ∈ mapKeys b, k <+: bitsOf id → k ∈ ks)
    {a x : Str} (ha : a ≠ []) (hx : x ∈ mapKeys b) (hp : parentOf b x = some a)
    (hh : (freshShelf b (some a)).head? ≠ some x) :
    ∃ id1 id2 us t1 vs t2, t0.search id1 = some (us, t1) ∧ t1.search id2 = some (vs, t2) ∧
      uriOf b x ∈ vs ∧ ¬ x <+: bitsOf id2 := by
  obtain ⟨pa, px, pn, pl⟩ := parentOf_some hm hp
  obtain ⟨N, hN⟩ := length_bound (mapKeys b)
  obtain ⟨id1, i1, i2, i3⟩ := exists_id_from (hbit x hx) N
  have hfit1 : ∀ k ∈ mapKeys b, k.length ≤ 8 * id1.length := fun k hk => Nat.le_trans (hN k hk) i3
  obtain ⟨ks, hw⟩ := shelfTree_answers hm hbit ht i1 hfit1
  obtain ⟨t1, s1, s2, -⟩ := (shelfTree_search hm hbit ht id1).2 ks hw
  have hi := inv_fresh b
  have hxk := hall id1 i1 hfit1 ks hw x hx i2
  have hak := hall id1 i1 hfit1 ks hw a pa (px.trans i2)
  obtain ⟨i, e1, e2⟩ := found_together hm hi hw hp hak hxk
  have hxm : x ∈ moved (freshShelf b) (freshShelf b none) ks := moved_of e1 e2 hh
  -- the second tag
  have hbit2 : IsBitStr (flipBits a ++ x.drop a.length) := by
    intro c hc
    rcases List.mem_append.mp hc with h | h
    · exact flip_bits a c h
    · exact hbit x hx c (List.mem_of_mem_drop h)
  obtain ⟨id2, j1, j2, j3⟩ := exists_id_from hbit2 N
  have hfit2 : ∀ k ∈ mapKeys b, k.length ≤ 8 * id2.length := fun k hk => Nat.le_trans (hN k hk) j3
  have hlf : (flipBits a).length = a.length := by simp [flipBits]
  have hlx : a.length ≤ x.length := px.length_le
  have at2 : ∀ i, i < x.length → (bitsOf id2)[i]? = (flipBits a ++ x.drop a.length)[i]? := by
    intro i hi
    rw [List.prefix_iff_getElem?] at j2
    have hl : i < (flipBits a ++ x.drop a.length).length := by
      rw [List.length_append, hlf, List.length_drop]; omega
    rw [j2 i hl, List.getElem?_eq_getElem hl]
  have low : ∀ i, i < a.length → (bitsOf id2)[i]? = (flipBits a)[i]? := by
    intro i hi
    rw [at2 i (by omega), List.getElem?_append_left (by omega)]
  have hnocut : ∀ k ∈ mapKeys b, ¬ OwnCut b id2 k := by
    rintro k hk ⟨h | h, -⟩
    · exact j1 h
    · exact absurd (hfit2 k hk) (Nat.not_le.mpr h)
  have hxin : OwnIn b id2 x := by
    intro i h1 h2
    have hos : ownStart b x = a.length := by unfold ownStart; rw [hp]; rfl
    rw [hos] at h1
    rw [at2 i h2, List.getElem?_append_right (by omega), hlf, List.getElem?_drop,
      show a.length + (i - a.length) = i by omega]
  -- those moved before it are missed
  obtain ⟨pre, post, hsplit⟩ := List.append_of_mem hxm
  have hpw : ks.Pairwise Extends := by
    rw [List.pairwise_iff_getElem]
    intro i j hi' hj' hij
    refine ⟨chain_prefix hm (walk_parents hi hw) (Nat.le_of_lt hij) (List.getElem?_eq_getElem hi')
      (List.getElem?_eq_getElem hj'), ?_⟩
    intro he
    have g1 := chain_prefix hm (walk_parents hi hw) (j := j) (i := i + 1) hij
      (List.getElem?_eq_getElem (by omega)) (List.getElem?_eq_getElem hj')
    have g2 := parentOf_some hm (walk_parents hi hw i _ _ (List.getElem?_eq_getElem hi')
      (List.getElem?_eq_getElem (by omega)))
    rw [← he] at g1
    exact g2.2.2.1 (prefix_antisymm g2.2.1 g1)
  have hpm := hpw.sublist (moved_sublist (freshShelf b) ks (freshShelf b none))
  rw [hsplit, List.pairwise_append] at hpm
  have hmiss : ∀ p ∈ pre, ¬ OwnIn b id2 p ∧ ¬ OwnCut b id2 p := by
    intro p hpp
    have hpmv : p ∈ moved (freshShelf b) (freshShelf b none) ks := by rw [hsplit]; simp [hpp]
    have hpk : p ∈ mapKeys b := by
      rcases mem_moved hw hpmv with g | ⟨y, g, -⟩
      · exact hi.known _ p g.1
      · exact hi.known _ p g
    refine ⟨?_, hnocut p hpk⟩
    have hext := hpm.2.2 p hpp x (by simp)
    have hpa : p <+: a := pl p hpk hext.1 hext.2
    have hpne : p ≠ [] := by
      rintro rfl
      rcases mem_moved hw hpmv with ⟨g1, g2⟩ | ⟨y, g, -⟩
      · apply g2
        -- the empty filter is the only one outermost
        have honly : ∀ q ∈ freshShelf b none, q = [] := by
          intro q hq
          obtain ⟨-, hq2⟩ := (mem_fresh b none q).mp hq
          exact (parentOf_none.mp hq2 [] hpk List.nil_prefix).symm
        cases hl : freshShelf b none with
        | nil => rw [hl] at g1; simp at g1
        | cons q r =>
          rw [List.head?_cons, honly q (by rw [hl]; simp)]
      · have := hi.child y [] g
        obtain ⟨-, q1, q2, -⟩ := parentOf_some hm this
        exact q2 (List.prefix_nil.mp q1)
    intro hin
    rcases ownStart_lt hm p with h | h
    · exact hpne h
    · have h1 := hin _ (Nat.le_refl _) h
      rw [low _ (Nat.lt_of_lt_of_le h hpa.length_le)] at h1
      have h2 : p[ownStart b p]? = a[ownStart b p]? := by
        have hpa' := hpa
        rw [List.prefix_iff_getElem?] at hpa'
        rw [hpa' _ h, List.getElem?_eq_getElem h]
      rw [h2] at h1
      exact flip_ne (hbit a pa) (Nat.lt_of_lt_of_le h hpa.length_le) h1
  obtain ⟨ks2, hw2⟩ := shelfTree_answers hm hbit s2 j1 hfit2
  obtain ⟨t2, r1, -, -⟩ := (shelfTree_search hm hbit s2 id2).2 ks2 hw2
  refine ⟨id1, id2, _, t1, _, t2, s1, r1, ?_, ?_⟩
  · have hnone : (freshShelf b).after ks none = pre ++ x :: (post ++
        (freshShelf b none).filter (· ∉ moved (freshShelf b) (freshShelf b none) ks)) := by
      rw [Shelf.after, hsplit, List.append_assoc]
      rfl
    rw [hnone] at hw2
    cases ks2 with
    | nil => exact absurd hxin (walk_nil.mp hw2 x (by simp)).1
    | cons y ks2 =>
      obtain ⟨pre', r', hl, h1, h2, -, -⟩ := walk_cons.mp hw2
      have hyx : y = x := by
        rcases List.append_eq_append_iff.mp hl with ⟨c, hc1, hc2⟩ | ⟨c, hc1, hc2⟩
        · cases c with
          | nil => simp at hc2; exact hc2.1.symm
          | cons z c =>
            simp at hc2
            have : x ∈ pre' := by rw [hc1, hc2.1]; simp
            exact absurd hxin (h1 x this).1
        · cases c with
          | nil => simp at hc2; exact hc2.1
          | cons z c =>
            simp at hc2
            have : y ∈ pre := by rw [hc1, hc2.1]; simp
            exact absurd h2 (hmiss y this).1
      rw [hyx]
      simp
  · intro h
    rw [List.prefix_iff_getElem?] at h
    have hpos := List.length_pos_iff.mpr ha
    have h0 := h 0 (by omega)
    rw [low 0 hpos, ← List.getElem?_eq_getElem] at h0
    have h2 : x[0]? = a[0]? := by
      have px' := px
      rw [List.prefix_iff_getElem?] at px'
      rw [px' 0 hpos, List.getElem?_eq_getElem hpos]
    rw [h2] at h0
    exact flip_ne (hbit a pa) hpos h0

end Gosstrak
