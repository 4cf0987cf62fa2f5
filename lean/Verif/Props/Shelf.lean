import Verif.Proofs.ShelfForks
import Verif.Props.Splay

/-! # C101: the splay tree after any searches -/
namespace Gosstrak

theorem splay_shelf (mk : Encoder) (sub : Subs) (hne : toByteSubscriptions mk sub ≠ [])
    (hbit : ∀ k u, (k, u) ∈ toByteSubscriptions mk sub → IsBitStr k) :
    IsMap (toByteSubscriptions mk sub) ∧ BitKeys (toByteSubscriptions mk sub) ∧
    ∃ t0, newSplay mk sub = some t0 ∧ ShelfTree (toByteSubscriptions mk sub) t0 (freshShelf (toByteSubscriptions mk sub)) := by
  have hm := isMap_toByteSubscriptions mk sub
  have hb : BitKeys (toByteSubscriptions mk sub) := fun k hk => hbit k _ (uriOf_mem hk)
  exact ⟨hm, hb, shelfTree_fresh hm hne hb⟩

/-- a tree that searches reached from a fresh one has lists -/
theorem splay_reached_shelf {mk : Encoder} {sub : Subs} (hne : toByteSubscriptions mk sub ≠ [])
    (hbit : ∀ k u, (k, u) ∈ toByteSubscriptions mk sub → IsBitStr k) {ids : List (List Byte)} {t0 t : SNode}
    (h0 : newSplay mk sub = some t0) (h : t0.searches ids = some t) :
    ∃ v, ShelfRun (toByteSubscriptions mk sub) (freshShelf (toByteSubscriptions mk sub)) ids v ∧
      ShelfTree (toByteSubscriptions mk sub) t v := by
  obtain ⟨hm, hb, t0', h1, h2⟩ := splay_shelf mk sub hne hbit
  rw [h0] at h1
  cases h1
  exact shelfTree_of_run hm hb h2 h

/-- C101: after any sequence of searches, of tags of any length, the splay tree does exactly what the
    lists do: the sequence panics iff there is no run, a search panics iff there is no walk, and it
    reports the URIs of the filters of the walk, the outermost first. -/
theorem C101_exact (mk : Encoder) (tr : Translator) (sub : Subs) (hne : toByteSubscriptions mk sub ≠ [])
    (hbit : ∀ k u, (k, u) ∈ toByteSubscriptions mk sub → IsBitStr k)
    (ids : List (List Byte)) (pc id : List Byte) :
    ∃ t0, newSplay mk sub = some t0 ∧
      ((∀ v, ¬ ShelfRun (toByteSubscriptions mk sub) (freshShelf (toByteSubscriptions mk sub)) ids v) →
        t0.searches ids = none) ∧
      ∀ v, ShelfRun (toByteSubscriptions mk sub) (freshShelf (toByteSubscriptions mk sub)) ids v →
        ∃ t, t0.searches ids = some t ∧
          ((∀ ks, ¬ Walk (toByteSubscriptions mk sub) id v (v none) ks) → t.searchEngine tr pc id = none) ∧
          ∀ ks, Walk (toByteSubscriptions mk sub) id v (v none) ks →
            ∃ t', t.searchEngine tr pc id =
              (finishSearch tr pc id (ks.map (uriOf (toByteSubscriptions mk sub)))).map fun r => (r, t') := by
  obtain ⟨hm, hb, t0, h1, h2⟩ := splay_shelf mk sub hne hbit
  obtain ⟨r1, r2⟩ := shelfTree_run hm hb ids h2
  refine ⟨t0, h1, r1, fun v hv => ?_⟩
  obtain ⟨t, a1, a2⟩ := r2 v hv
  obtain ⟨s1, s2⟩ := shelfTree_search hm hb a2 id
  refine ⟨t, a1, fun hno => ?_, fun ks hk => ?_⟩
  · unfold SNode.searchEngine
    rw [s1 hno]
  · obtain ⟨t', b1, -⟩ := s2 ks hk
    refine ⟨t', ?_⟩
    unfold SNode.searchEngine
    rw [b1]

/-- The lists say what happens: there is at most one walk. -/
theorem C101_walk_unique (b : FlatSubs) (id : List Byte) (v : Shelf) (l ks ks' : List Str)
    (h : Walk b id v l ks) (h' : Walk b id v l ks') : ks = ks' := shelf_walk_unique h h'

/-- C101: whatever was searched before, an answered search for a tag that a stored filter starts
    reports somebody. -/
theorem C101_never_silent (mk : Encoder) (sub : Subs)
    (hbit : ∀ k u, (k, u) ∈ toByteSubscriptions mk sub → IsBitStr k)
    (ids : List (List Byte)) (id : List Byte) (t0 t t' : SNode) (us : List Str)
    (h0 : newSplay mk sub = some t0) (h : t0.searches ids = some t) (hs : t.search id = some (us, t'))
    (k u : Str) (hk : (k, u) ∈ toByteSubscriptions mk sub) (hp : k <+: bitsOf id) : us ≠ [] := by
  have hne : toByteSubscriptions mk sub ≠ [] := List.ne_nil_of_mem hk
  obtain ⟨hm, hb, -⟩ := splay_shelf mk sub hne hbit
  obtain ⟨v, -, hv⟩ := splay_reached_shelf hne hbit h0 h
  obtain ⟨ks, hw, rfl, -⟩ := shelfTree_of_search hm hb hv hs
  obtain ⟨T, -, -, hi⟩ := hv
  obtain ⟨p, p1, p2⟩ := outer_prefix hm hi _ k (Nat.le_refl _) (key_of_mem hk)
  intro hn
  rw [List.map_eq_nil_iff] at hn
  subst hn
  exact (walk_nil.mp hw p p1).1 (bits_own (p2.trans hp))

/-- C101: whatever was searched before, the reported filters are nested without a gap, the tag has the
    own part of each, and either all of them start the tag or none does. -/
theorem C101_all_or_none (mk : Encoder) (sub : Subs) (hne : toByteSubscriptions mk sub ≠ [])
    (hbit : ∀ k u, (k, u) ∈ toByteSubscriptions mk sub → IsBitStr k)
    (ids : List (List Byte)) (id : List Byte) (t0 t t' : SNode) (us : List Str)
    (h0 : newSplay mk sub = some t0) (h : t0.searches ids = some t) (hs : t.search id = some (us, t')) :
    ∃ ks : List Str, us = ks.map (uriOf (toByteSubscriptions mk sub)) ∧
      (∀ k ∈ ks, k ∈ mapKeys (toByteSubscriptions mk sub) ∧ OwnIn (toByteSubscriptions mk sub) id k) ∧
      (∀ (i : Nat) (p k : Str), ks[i]? = some p → ks[i + 1]? = some k →
        parentOf (toByteSubscriptions mk sub) k = some p) ∧
      ((∀ k ∈ ks, k <+: bitsOf id) ∨ ∀ k ∈ ks, ¬ k <+: bitsOf id) := by
  obtain ⟨hm, hb, -⟩ := splay_shelf mk sub hne hbit
  obtain ⟨v, -, hv⟩ := splay_reached_shelf hne hbit h0 h
  obtain ⟨ks, hw, rfl, -⟩ := shelfTree_of_search hm hb hv hs
  obtain ⟨T, -, -, hi⟩ := hv
  refine ⟨ks, rfl, fun k hk => ⟨walk_known hi hw (hi.known none) k hk, (walk_own hw k hk).1⟩,
    walk_parents hi hw, ?_⟩
  cases hk0 : ks[0]? with
  | none =>
    left
    intro k hk
    rw [List.getElem?_eq_none_iff] at hk0
    have := List.length_pos_of_mem hk
    omega
  | some k0 =>
    obtain ⟨g1, g2⟩ := walk_truth hm hi hw hk0
    by_cases hb0 : k0 <+: bitsOf id
    · exact Or.inl (g1 hb0)
    · exact Or.inr (g2 hb0)

/-- every URI belongs to one filter -/
def OneFilterEach (b : FlatSubs) : Prop := ∀ k k' u, (k, u) ∈ b → (k', u) ∈ b → k = k'

theorem uri_mem_map {b : FlatSubs} (hm : IsMap b) (hu : OneFilterEach b) {ks : List Str}
    (hks : ∀ k ∈ ks, k ∈ mapKeys b) {k u : Str} (hk : (k, u) ∈ b) : u ∈ ks.map (uriOf b) ↔ k ∈ ks := by
  rw [List.mem_map]
  constructor
  · rintro ⟨x, hx, rfl⟩
    rw [hu k x _ hk (uriOf_mem (hks x hx))]
    exact hx
  · exact fun h => ⟨k, h, uriOf_eq hm hk⟩

/-- C101: let `a` be the longest stored filter that `k` extends, and let another stored filter between
    `a` and `k` in key order extend `a`. Over any sequence of searches the two are reported together at
    most once. -/
theorem C101_once (mk : Encoder) (sub : Subs)
    (hbit : ∀ k u, (k, u) ∈ toByteSubscriptions mk sub → IsBitStr k)
    (huniq : OneFilterEach (toByteSubscriptions mk sub))
    (a k c ua uk uc : Str) (ha : (a, ua) ∈ toByteSubscriptions mk sub)
    (hk : (k, uk) ∈ toByteSubscriptions mk sub) (hc : (c, uc) ∈ toByteSubscriptions mk sub)
    (hak : Extends a k) (hlong : ∀ q w, (q, w) ∈ toByteSubscriptions mk sub → Extends q k → q <+: a)
    (hac : Extends a c) (hck : c < k)
    (ids1 ids2 : List (List Byte)) (id1 id2 : List Byte) (t0 t1 t1' t2 t2' : SNode) (us vs : List Str)
    (h0 : newSplay mk sub = some t0) (h1 : t0.searches ids1 = some t1) (s1 : t1.search id1 = some (us, t1'))
    (h2 : t1'.searches ids2 = some t2) (s2 : t2.search id2 = some (vs, t2'))
    (hus : ua ∈ us ∧ uk ∈ us) : ¬ (ua ∈ vs ∧ uk ∈ vs) := by
  have hne : toByteSubscriptions mk sub ≠ [] := List.ne_nil_of_mem hk
  obtain ⟨hm, hb, -⟩ := splay_shelf mk sub hne hbit
  obtain ⟨v, -, hv⟩ := splay_reached_shelf hne hbit h0 h1
  obtain ⟨ks1, hw1, rfl, hv1⟩ := shelfTree_of_search hm hb hv s1
  obtain ⟨v2, hr2, hv2⟩ := shelfTree_of_run hm hb hv1 h2
  obtain ⟨ks2, hw2, rfl, -⟩ := shelfTree_of_search hm hb hv2 s2
  obtain ⟨-, -, -, hi⟩ := hv
  obtain ⟨-, -, -, hi2⟩ := hv2
  have hpar : parentOf (toByteSubscriptions mk sub) k = some a :=
    parentOf_eq hm (key_of_mem ha) hak.1 hak.2 fun q hq g1 g2 => hlong q _ (uriOf_mem hq) ⟨g1, g2⟩
  rw [uri_mem_map hm huniq (walk_known hi hw1 (hi.known none)) ha,
    uri_mem_map hm huniq (walk_known hi hw1 (hi.known none)) hk] at hus
  rw [uri_mem_map hm huniq (walk_known hi2 hw2 (hi2.known none)) ha,
    uri_mem_map hm huniq (walk_known hi2 hw2 (hi2.known none)) hk]
  rintro ⟨g1, g2⟩
  -- `k` is not the first child of `a`
  have hnh : (v (some a)).head? ≠ some k := by
    rw [hi.head a]
    intro hh
    obtain ⟨x, x1, x2, x3⟩ := child_toward hm (key_of_mem ha) _ c (Nat.le_refl _) (key_of_mem hc) hac
    have hxm := (mem_fresh (toByteSubscriptions mk sub) (some a) x).mpr ⟨x1, x2⟩
    have hxk : x < k := by
      by_cases he : x = c
      · rw [he]; exact hck
      · exact List.lt_trans (lt_of_proper_prefix x3 he) hck
    have hasc : (freshShelf (toByteSubscriptions mk sub) (some a)).Pairwise (· < ·) := (mapKeys_lt hm).filter _
    cases hl : freshShelf (toByteSubscriptions mk sub) (some a) with
    | nil => rw [hl] at hh; simp at hh
    | cons y r =>
      rw [hl] at hh hxm hasc
      simp at hh
      subst hh
      rcases List.mem_cons.mp hxm with rfl | hxr
      · exact List.lt_irrefl _ hxk
      · exact List.lt_irrefl _ (List.lt_trans hxk ((List.pairwise_cons.mp hasc).1 x hxr))
  obtain ⟨i, e1, e2⟩ := found_together hm hi hw1 hpar hus.1 hus.2
  have hmv : k ∈ moved v (v none) ks1 := moved_of e1 e2 hnh
  obtain ⟨j, f1, f2⟩ := found_together hm hi2 hw2 hpar g1 g2
  have hlast := run_shrinks hr2 (walk_next hw2 f1 f2)
  rw [Shelf.after, List.mem_filter] at hlast
  have := hlast.2
  simp at this
  exact this hmv

/-- C101: searching for a tag again. The second answer is a part of the first without gaps, empty only
    if the first was; from then on the same search gives the same answer and changes nothing. -/
theorem C101_settles (mk : Encoder) (sub : Subs) (hne : toByteSubscriptions mk sub ≠ [])
    (hbit : ∀ k u, (k, u) ∈ toByteSubscriptions mk sub → IsBitStr k)
    (ids : List (List Byte)) (id : List Byte) (t0 t t1 : SNode) (us : List Str)
    (h0 : newSplay mk sub = some t0) (h : t0.searches ids = some t) (hs : t.search id = some (us, t1)) :
    ∃ vs, t1.search id = some (vs, t1) ∧ vs <:+: us ∧ (vs = [] → us = []) := by
  obtain ⟨hm, hb, -⟩ := splay_shelf mk sub hne hbit
  obtain ⟨v, -, hv⟩ := splay_reached_shelf hne hbit h0 h
  obtain ⟨ks, hw, rfl, hv1⟩ := shelfTree_of_search hm hb hv hs
  obtain ⟨-, -, -, hi⟩ := hv
  obtain ⟨ks1, g1, g2, g3, g4⟩ := settle hm hi hw
  obtain ⟨t2, a1, -, a3⟩ := (shelfTree_search hm hb hv1 id).2 ks1 g1
  rw [a3 g4] at a1
  refine ⟨_, a1, ?_, ?_⟩
  · obtain ⟨x, y, hxy⟩ := g2
    exact ⟨x.map (uriOf _), y.map (uriOf _), by rw [← List.map_append, ← List.map_append, hxy]⟩
  · intro hn
    rw [List.map_eq_nil_iff] at hn ⊢
    exact g3 hn

/-- every answered search after any searches reports only URIs with a filter that starts the tag -/
def ReportsOnlyTrue (mk : Encoder) (sub : Subs) : Prop :=
  ∀ (ids : List (List Byte)) (id : List Byte) (t0 t t' : SNode) (us : List Str),
    newSplay mk sub = some t0 → t0.searches ids = some t → t.search id = some (us, t') →
    ∀ u ∈ us, ∃ k, (k, u) ∈ toByteSubscriptions mk sub ∧ k <+: bitsOf id

/-- C101: no sequence of searches makes the splay tree report a subscription wrongly, exactly if no
    stored filter other than the empty one has two children. -/
theorem C101_only_true_iff (mk : Encoder) (sub : Subs) (hne : toByteSubscriptions mk sub ≠ [])
    (hbit : ∀ k u, (k, u) ∈ toByteSubscriptions mk sub → IsBitStr k)
    (huniq : OneFilterEach (toByteSubscriptions mk sub)) :
    ReportsOnlyTrue mk sub ↔
      ∀ a, a ≠ [] → ¬ Forks (fun k u => (k, u) ∈ toByteSubscriptions mk sub) a := by
  obtain ⟨hm, hb, t0, hn0, ht0⟩ := splay_shelf mk sub hne hbit
  constructor
  · intro htrue a ha hf
    obtain ⟨x, hx, y, hy, px, py, hxy⟩ := (forks_iff hm a).mp hf
    -- all filters that start a tag are found by the first search
    have hall : ∀ id : List Byte, id ≠ [] → (∀ k ∈ mapKeys (toByteSubscriptions mk sub), k.length ≤ 8 * id.length) →
        ∀ ks, Walk (toByteSubscriptions mk sub) id (freshShelf (toByteSubscriptions mk sub))
          (freshShelf (toByteSubscriptions mk sub) none) ks →
        ∀ k ∈ mapKeys (toByteSubscriptions mk sub), k <+: bitsOf id → k ∈ ks := by
      intro id hid hfit ks hw k hk hkb
      obtain ⟨t', a1, -⟩ := (shelfTree_search hm hb ht0 id).2 ks hw
      have hc : Covered (toByteSubscriptions mk sub) id := by
        intro q w hq
        have := hfit q (key_of_mem hq)
        exact ⟨hbit q w hq, by simpa using this, by simpa using List.length_pos_iff.mpr hid⟩
      obtain ⟨s, g1, g2⟩ := sstores_fresh _ hm hne hbit
      have hs0 : newSplay mk sub = some s := g1
      rw [hn0] at hs0
      cases hs0
      obtain ⟨uris, t'', b1, ⟨hits, -, b3, b4⟩, -⟩ := sstores_search g2 id hid fun q w hq => hfit q (key_of_mem hq)
      rw [a1] at b1
      simp only [Option.some.injEq, Prod.mk.injEq] at b1
      have hmem : uriOf (toByteSubscriptions mk sub) k ∈ ks.map (uriOf (toByteSubscriptions mk sub)) := by
        rw [b1.1, b4]
        exact List.mem_map.mpr ⟨(k, uriOf _ k), (b3 _ _).mpr ⟨uriOf_mem hk, hkb⟩, rfl⟩
      exact (uri_mem_map hm huniq (walk_known (inv_fresh _) hw ((inv_fresh _).known none)) (uriOf_mem hk)).mp hmem
    -- one of the two is not the first
    have hpick : ∃ z ∈ mapKeys (toByteSubscriptions mk sub), parentOf (toByteSubscriptions mk sub) z = some a ∧
        (freshShelf (toByteSubscriptions mk sub) (some a)).head? ≠ some z := by
      by_cases h : (freshShelf (toByteSubscriptions mk sub) (some a)).head? = some x
      · refine ⟨y, hy, py, ?_⟩
        rw [h]
        intro h'
        injection h' with h'
        exact hxy h'
      · exact ⟨x, hx, px, h⟩
    obtain ⟨z, hz, pz, hh⟩ := hpick
    obtain ⟨id1, id2, us, t1, vs, t2, s1, s2, hin, hnot⟩ := false_hit hm hb ht0 hall ha hz pz hh
    obtain ⟨k, hk, hkb⟩ := htrue [id1] id2 t0 t1 t2 vs hn0 (by simp [SNode.searches, s1]) s2 _ hin
    rw [huniq k z _ hk (uriOf_mem hz)] at hkb
    exact hnot hkb
  · intro hnf ids id s0 t t' us h0 h hs u hu
    obtain ⟨v, hr, hv⟩ := splay_reached_shelf hne hbit h0 h
    obtain ⟨ks, hw, rfl, -⟩ := shelfTree_of_search hm hb hv hs
    obtain ⟨hi, hout⟩ := run_outer hm hnf (inv_fresh _) (by
      intro k hk p hp
      rw [((mem_fresh _ none k).mp hk).2] at hp
      cases hp) hr
    obtain ⟨k, hk, rfl⟩ := List.mem_map.mp hu
    refine ⟨k, uriOf_mem (walk_known hi hw (hi.known none) k hk), ?_⟩
    cases hk0 : ks[0]? with
    | none =>
      rw [List.getElem?_eq_none_iff] at hk0
      have := List.length_pos_of_mem hk
      omega
    | some k0 =>
      refine (walk_truth hm hi hw hk0).1 ?_ k hk
      refine own_bits (walk_own hw k0 (List.mem_iff_getElem?.mpr ⟨0, hk0⟩)).1 ?_
      intro p hp
      rw [hout k0 (walk_head hw hk0) p hp]
      exact ⟨List.nil_prefix, List.nil_prefix⟩

/-! Cases that meet the hypotheses -/

/-- `0` with the children `001` and `010`, and `1` -/
def forkSubs : Subs := [("http://a".toList, ["urn:epc:pat:s:0".toList]),
  ("http://b".toList, ["urn:epc:pat:s:001".toList]), ("http://c".toList, ["urn:epc:pat:s:010".toList]),
  ("http://d".toList, ["urn:epc:pat:s:1".toList])]

theorem forkSubs_flat : toByteSubscriptions toyEncoder forkSubs = [("0".toList, "http://a".toList),
    ("001".toList, "http://b".toList), ("010".toList, "http://c".toList), ("1".toList, "http://d".toList)] := by
  decide +kernel

-- the lists of the fresh tree, and where filters start
example : freshShelf (toByteSubscriptions toyEncoder forkSubs) none = ["0".toList, "1".toList] ∧
    freshShelf (toByteSubscriptions toyEncoder forkSubs) (some "0".toList) = ["001".toList, "010".toList] ∧
    ownStart (toByteSubscriptions toyEncoder forkSubs) "010".toList = 1 := by
  rw [forkSubs_flat]
  decide +kernel

-- hypotheses of C101_once, and a search that reports both
example : let b := toByteSubscriptions toyEncoder forkSubs
    (∀ e ∈ b, IsBitStr e.1) ∧ (∀ e ∈ b, ∀ e' ∈ b, e.2 = e'.2 → e.1 = e'.1) ∧
    ("0".toList, "http://a".toList) ∈ b ∧ ("010".toList, "http://c".toList) ∈ b ∧
    (∀ e ∈ b, e.1 <+: "010".toList → e.1 ≠ "010".toList → e.1 <+: "0".toList) ∧
    ("001".toList, "http://b".toList) ∈ b ∧ "001".toList < "010".toList := by
  rw [forkSubs_flat]
  decide +kernel

-- the first, second and third search of a tag; then one of a tag that starts with `1`
example : ((newSplay toyEncoder forkSubs).bind fun t => (t.search [0x40#8]).bind fun r =>
      (r.2.search [0x40#8]).bind fun r' => (r'.2.search [0x40#8]).bind fun r'' =>
      (r''.2.search [0xC0#8]).map fun q => (r.1, r'.1, r''.1, q.1)) =
    some (["http://a".toList, "http://c".toList], ["http://c".toList], ["http://c".toList],
      ["http://c".toList]) := by decide +kernel

-- a filter with two children that is not empty
example : Forks (fun k u => (k, u) ∈ toByteSubscriptions toyEncoder forkSubs) "0".toList := by
  rw [forks_iff (isMap_toByteSubscriptions _ _), forkSubs_flat]
  exact ⟨"001".toList, by decide +kernel, "010".toList, by decide +kernel, by decide +kernel,
    by decide +kernel, by decide⟩

-- no such filter, though the empty one has two children
example : ∀ a, a ≠ [] → ¬ Forks (fun k u => (k, u) ∈ toByteSubscriptions toyEncoder
    [("http://e".toList, ["urn:epc:pat:s:".toList]), ("http://a".toList, ["urn:epc:pat:s:0".toList]),
     ("http://d".toList, ["urn:epc:pat:s:1".toList])]) a := by
  intro a ha h
  rw [forks_iff (isMap_toByteSubscriptions _ _)] at h
  obtain ⟨k, hk, k', hk', h1, h2, hne⟩ := h
  have key : ∀ k ∈ mapKeys (toByteSubscriptions toyEncoder
      [("http://e".toList, ["urn:epc:pat:s:".toList]), ("http://a".toList, ["urn:epc:pat:s:0".toList]),
       ("http://d".toList, ["urn:epc:pat:s:1".toList])]), parentOf (toByteSubscriptions toyEncoder
      [("http://e".toList, ["urn:epc:pat:s:".toList]), ("http://a".toList, ["urn:epc:pat:s:0".toList]),
       ("http://d".toList, ["urn:epc:pat:s:1".toList])]) k ∈ [none, some []] := by decide +kernel
  have := key k hk
  rw [h1] at this
  simp at this
  exact ha this

end Gosstrak
