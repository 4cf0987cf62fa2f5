import Verif.Proofs.RackFacts
import Verif.Props.Shelf

/-! # C103: the splay tree after any additions, deletions and searches -/
namespace Gosstrak

/-- a fresh tree and its groups -/
theorem splay_rack (mk : Encoder) (sub : Subs) (hne : toByteSubscriptions mk sub ≠ [])
    (hbit : ∀ k u, (k, u) ∈ toByteSubscriptions mk sub → IsBitStr k) :
    ∃ t0, newSplay mk sub = some t0 ∧ t0 ≠ .nil ∧ Ranked t0 ∧
      t0.rack = freshRack (toByteSubscriptions mk sub) :=
  fresh_ranked (isMap_toByteSubscriptions mk sub) hne hbit

/-- a tree that calls reached from a fresh one has the groups that the calls give -/
theorem splay_reached_rack {mk : Encoder} {sub : Subs} (hne : toByteSubscriptions mk sub ≠ [])
    (hbit : ∀ k u, (k, u) ∈ toByteSubscriptions mk sub → IsBitStr k) {cs : List SplayCall}
    (hcs : ∀ c ∈ cs, BitCall mk c) {t0 t : SNode}
    (h0 : newSplay mk sub = some t0) (h : cs.foldlM (SNode.applyCall mk) t0 = some t) :
    t ≠ .nil ∧ Ranked t ∧ rackAfter mk sub cs = some t.rack := by
  obtain ⟨t0', h1, h2, h3, h4⟩ := splay_rack mk sub hne hbit
  rw [h0] at h1
  cases h1
  obtain ⟨a1, a2⟩ := calls_ranked cs t0 hcs h2 h3
  obtain ⟨b1, b2⟩ := a2 t h
  refine ⟨b1, b2, ?_⟩
  unfold rackAfter
  rw [← h4, ← a1, h]
  rfl

/-- C103: after any sequence of additions, deletions and searches, in any order and for tags of any length, the
    splay tree does exactly what the groups do: the sequence panics iff they do, a further search panics iff
    theirs does, and it reports the URIs that theirs finds. -/
theorem C103_exact (mk : Encoder) (tr : Translator) (sub : Subs) (hne : toByteSubscriptions mk sub ≠ [])
    (hbit : ∀ k u, (k, u) ∈ toByteSubscriptions mk sub → IsBitStr k)
    (cs : List SplayCall) (hcs : ∀ c ∈ cs, BitCall mk c) (pc id : List Byte) :
    ∃ t0, newSplay mk sub = some t0 ∧
      (rackAfter mk sub cs = none → cs.foldlM (SNode.applyCall mk) t0 = none) ∧
      ∀ r, rackAfter mk sub cs = some r → ∃ t, cs.foldlM (SNode.applyCall mk) t0 = some t ∧
        (r.search id = none → t.searchEngine tr pc id = none) ∧
        ∀ us r', r.search id = some (us, r') →
          ∃ t', t.searchEngine tr pc id = (finishSearch tr pc id us).map fun q => (q, t') := by
  obtain ⟨t0, h1, h2, h3, h4⟩ := splay_rack mk sub hne hbit
  obtain ⟨a1, a2⟩ := calls_ranked cs t0 hcs h2 h3
  rw [h4] at a1
  change _ = rackAfter mk sub cs at a1
  refine ⟨t0, h1, fun h => ?_, fun r hr => ?_⟩
  · rw [h, Option.map_eq_none_iff] at a1
    exact a1
  · rw [hr, Option.map_eq_some_iff] at a1
    obtain ⟨t, g1, rfl⟩ := a1
    obtain ⟨b1, b2⟩ := a2 t g1
    obtain ⟨s1, -⟩ := search_ranked id b1 b2
    refine ⟨t, g1, fun h => ?_, fun us r' h => ?_⟩
    · rw [h, Option.map_eq_none_iff] at s1
      unfold SNode.searchEngine
      rw [s1]
    · rw [h, Option.map_eq_some_iff] at s1
      obtain ⟨⟨us', t'⟩, g2, g3⟩ := s1
      simp only [Prod.mk.injEq] at g3
      refine ⟨t', ?_⟩
      unfold SNode.searchEngine
      rw [g2, g3.1]

/-- C103: only searches panic, whatever the sequence of calls before. -/
theorem C103_updates_end (mk : Encoder) (sub : Subs) (hne : toByteSubscriptions mk sub ≠ [])
    (hbit : ∀ k u, (k, u) ∈ toByteSubscriptions mk sub → IsBitStr k)
    (cs : List SplayCall) (hcs : ∀ c ∈ cs, BitCall mk c) (t0 t : SNode)
    (h0 : newSplay mk sub = some t0) (h : cs.foldlM (SNode.applyCall mk) t0 = some t)
    (c : SplayCall) (hc : BitCall mk c) (hs : ∀ id, c ≠ .search id) : ∃ t', t.applyCall mk c = some t' := by
  obtain ⟨h1, h2, -⟩ := splay_reached_rack hne hbit hcs h0 h
  obtain ⟨a1, -⟩ := call_ranked c hc h1 h2
  cases ha : t.applyCall mk c with
  | some t' => exact ⟨t', rfl⟩
  | none =>
    rw [ha] at a1
    cases c with
    | add s => cases a1
    | delete s => cases a1
    | search id => exact absurd rfl (hs id)

/-- C103: whatever the sequence of calls, only URIs that the tree was built with or that were added are
    reported, and the empty one. -/
theorem C103_given_only (mk : Encoder) (sub : Subs) (hne : toByteSubscriptions mk sub ≠ [])
    (hbit : ∀ k u, (k, u) ∈ toByteSubscriptions mk sub → IsBitStr k)
    (cs : List SplayCall) (hcs : ∀ c ∈ cs, BitCall mk c) (t0 t t' : SNode) (id : List Byte) (us : List Str)
    (h0 : newSplay mk sub = some t0) (h : cs.foldlM (SNode.applyCall mk) t0 = some t)
    (hs : t.search id = some (us, t')) :
    ∀ u ∈ us, u = [] ∨ (∃ k, (k, u) ∈ toByteSubscriptions mk sub) ∨
      ∃ s k, SplayCall.add s ∈ cs ∧ (k, u) ∈ toByteSubscriptions mk s := by
  obtain ⟨h1, h2, h3⟩ := splay_reached_rack hne hbit hcs h0 h
  obtain ⟨s1, -⟩ := search_ranked id h1 h2
  rw [hs, Option.map_some] at s1
  unfold Rack.search at s1
  obtain ⟨a, g1, g2⟩ := Option.map_eq_some_iff.mp s1.symm
  simp only [Prod.mk.injEq] at g2
  intro u hu
  rw [← g2.1] at hu
  obtain ⟨g, hg, e, he, rfl, -⟩ := find_found g1 u hu
  rcases calls_uris cs h3 e.2 (mem_uris.mpr ⟨g, hg, e, he, rfl⟩) with h | h | ⟨c, hc, h⟩
  · exact Or.inl h
  · exact Or.inr (Or.inl (freshRack_uris (isMap_toByteSubscriptions mk sub) _ h))
  · cases c with
    | add s =>
      obtain ⟨k, hk⟩ := h
      exact Or.inr (Or.inr ⟨s, k, hc, hk⟩)
    | delete s => exact h.elim
    | search id => exact h.elim

/-- the one filter of an addition -/
theorem add_one {mk : Encoder} {s : Subs} {k u : Str} (hs : toByteSubscriptions mk s = [(k, u)]) (r : Rack) :
    r.call mk (.add s) = some (r.add k u) := by
  have hk : mapKeys (toByteSubscriptions mk s) = [k] := by rw [hs]; rfl
  have hu : uriOf (toByteSubscriptions mk s) k = u := by
    rw [hs]
    simp [uriOf, mapGet]
  simp [Rack.call, hk, hu]

/-- C103: a filter that is added with a new URI, whatever calls went before, is from then on looked for at the
    place of the group that it is put into, and nowhere else: a search that reports the URI is for a tag
    that has the filter there. -/
theorem C103_add_only (mk : Encoder) (sub : Subs) (hne : toByteSubscriptions mk sub ≠ [])
    (hbit : ∀ k u, (k, u) ∈ toByteSubscriptions mk sub → IsBitStr k)
    (cs : List SplayCall) (hcs : ∀ c ∈ cs, BitCall mk c) (t0 t t1 t' : SNode) (r : Rack) (id : List Byte)
    (us : List Str) (s : Subs) (k u : Str)
    (h0 : newSplay mk sub = some t0) (h : cs.foldlM (SNode.applyCall mk) t0 = some t)
    (hr : rackAfter mk sub cs = some r)
    (hs : toByteSubscriptions mk s = [(k, u)]) (hk : IsBitStr k) (hnew : u ∉ r.uris)
    (ha : t.applyCall mk (.add s) = some t1) (hse : t1.search id = some (us, t')) (hu : u ∈ us) :
    k <+: (bitsOf id).drop (r.placeFor k) := by
  obtain ⟨h1, h2, h3⟩ := splay_reached_rack hne hbit hcs h0 h
  rw [hr] at h3
  cases h3
  have hb : BitCall mk (.add s) := by
    intro x hx
    rw [hs] at hx
    have hx' : x ∈ [k] := hx
    rw [List.mem_singleton.mp hx']
    exact hk
  obtain ⟨a1, a2⟩ := call_ranked (.add s) hb h1 h2
  rw [ha, add_one hs, Option.map_some, Option.some.injEq] at a1
  obtain ⟨b1, b2⟩ := a2 t1 ha
  obtain ⟨s1, -⟩ := search_ranked id b1 b2
  rw [hse, Option.map_some, a1] at s1
  unfold Rack.search at s1
  obtain ⟨a, g1, g2⟩ := Option.map_eq_some_iff.mp s1.symm
  simp only [Prod.mk.injEq] at g2
  rw [← g2.1] at hu
  obtain ⟨g, hg, e, he, rfl, hp⟩ := find_found g1 u hu
  rcases add_mem _ _ _ g hg e he with ⟨g', m1, -, m2⟩ | ⟨m1, m2⟩
  · exact absurd (mem_uris.mpr ⟨g', m1, e, m2, rfl⟩) hnew
  · rw [m1, m2] at hp
    exact hp

/-- C103: and it is found there: let the group at the place `p` be the first whose foremost filter starts the
    new one. A search that is answered reports the new URI if the tag has the new filter from `p` on, no
    filter of a group in front at its place, and no filter of this group that does not start the new one. -/
theorem C103_add_found (mk : Encoder) (sub : Subs) (hne : toByteSubscriptions mk sub ≠ [])
    (hbit : ∀ k u, (k, u) ∈ toByteSubscriptions mk sub → IsBitStr k)
    (cs : List SplayCall) (hcs : ∀ c ∈ cs, BitCall mk c) (t0 t t1 t' : SNode) (pre post : Rack) (p : Nat)
    (L : FlatSubs) (id : List Byte) (us : List Str) (s : Subs) (k u : Str)
    (h0 : newSplay mk sub = some t0) (h : cs.foldlM (SNode.applyCall mk) t0 = some t)
    (hr : rackAfter mk sub cs = some (pre ++ (p, L) :: post))
    (hpre : ∀ g ∈ pre, ¬ g.Takes k) (htake : Group.Takes (p, L) k)
    (hs : toByteSubscriptions mk s = [(k, u)]) (hk : IsBitStr k)
    (ha : t.applyCall mk (.add s) = some t1) (hse : t1.search id = some (us, t'))
    (hfront : ∀ g ∈ pre, ∀ e ∈ g.2, ¬ e.1 <+: (bitsOf id).drop g.1)
    (hown : ∀ e ∈ L, e.1 <+: (bitsOf id).drop p → e.1 <+: k)
    (hin : k <+: (bitsOf id).drop p) : u ∈ us := by
  obtain ⟨h1, h2, h3⟩ := splay_reached_rack hne hbit hcs h0 h
  rw [hr, Option.some.injEq] at h3
  have hb : BitCall mk (.add s) := by
    intro x hx
    rw [hs] at hx
    have hx' : x ∈ [k] := hx
    rw [List.mem_singleton.mp hx']
    exact hk
  obtain ⟨a1, a2⟩ := call_ranked (.add s) hb h1 h2
  rw [ha, add_one hs, Option.map_some, Option.some.injEq, ← h3, add_split htake pre hpre] at a1
  obtain ⟨b1, b2⟩ := a2 t1 ha
  obtain ⟨s1, -⟩ := search_ranked id b1 b2
  rw [hse, Option.map_some, a1] at s1
  unfold Rack.search at s1
  obtain ⟨a, g1, g2⟩ := Option.map_eq_some_iff.mp s1.symm
  simp only [Prod.mk.injEq] at g2
  rw [← g2.1]
  exact find_added hin hown pre true hfront g1

/-! Cases that meet the hypotheses, and what the code does wrong -/

/-- one more subscription -/
def oneSub (uri pat : String) : Subs := [(uri.toList, [("urn:epc:pat:s:" ++ pat).toList])]

theorem fork_calls_ok : toByteSubscriptions toyEncoder forkSubs ≠ [] ∧
    ∀ k u, (k, u) ∈ toByteSubscriptions toyEncoder forkSubs → IsBitStr k := by
  rw [forkSubs_flat]
  refine ⟨by simp, fun k u h => ?_⟩
  have : ∀ e ∈ [("0".toList, "http://a".toList), ("001".toList, "http://b".toList),
    ("010".toList, "http://c".toList), ("1".toList, "http://d".toList)], IsBitStr e.1 := by decide +kernel
  exact this (k, u) h

-- the groups of the fresh tree, and after the search of a tag that starts with `010`
example : freshRack (toByteSubscriptions toyEncoder forkSubs) =
    [(0, [("0".toList, "http://a".toList), ("001".toList, "http://b".toList), ("010".toList, "http://c".toList)]),
     (0, [("1".toList, "http://d".toList)])] ∧
    rackAfter toyEncoder forkSubs [.search [0x40#8]] = some
    [(1, [("10".toList, "http://c".toList)]),
     (0, [("0".toList, "http://a".toList), ("001".toList, "http://b".toList)]),
     (0, [("1".toList, "http://d".toList)])] := by
  unfold rackAfter
  rw [forkSubs_flat]
  decide +kernel

-- the hypotheses of C103_add_only and C103_add_found for the addition of `1010` after that search
example : toByteSubscriptions toyEncoder (oneSub "http://n" "1010") = [("1010".toList, "http://n".toList)] ∧
    IsBitStr "1010".toList ∧ Group.Takes (1, [("10".toList, "http://c".toList)]) "1010".toList ∧
    Rack.placeFor "1010".toList [(1, [("10".toList, "http://c".toList)]),
     (0, [("0".toList, "http://a".toList), ("001".toList, "http://b".toList)]),
     (0, [("1".toList, "http://d".toList)])] = 1 := by decide +kernel

/-- C103: after one search an addition is lost. Of the tags that the new filter starts not all are reported to
    the new URI, and a tag that it does not start is. -/
theorem C103_add_lost : ∃ t0 t1 t2 t3 t4 us vs, newSplay toyEncoder forkSubs = some t0 ∧
    t0.applyCall toyEncoder (.search [0x40#8]) = some t1 ∧
    t1.applyCall toyEncoder (.add (oneSub "http://n" "1010")) = some t2 ∧
    t2.search [0xA0#8] = some (us, t3) ∧ "1010".toList <+: bitsOf [0xA0#8] ∧ "http://n".toList ∉ us ∧
    t2.search [0x50#8] = some (vs, t4) ∧ ¬ "1010".toList <+: bitsOf [0x50#8] ∧ "http://n".toList ∈ vs := by
  have h : ((newSplay toyEncoder forkSubs).bind fun t0 => (t0.applyCall toyEncoder (.search [0x40#8])).bind fun t1 =>
      (t1.applyCall toyEncoder (.add (oneSub "http://n" "1010"))).bind fun t2 =>
      (t2.search [0xA0#8]).bind fun p => (t2.search [0x50#8]).map fun q => (p.1, q.1)) =
      some (["http://d".toList], ["http://c".toList, "http://n".toList]) := by decide +kernel
  rw [Option.bind_eq_some_iff] at h
  obtain ⟨t0, h0, h⟩ := h
  rw [Option.bind_eq_some_iff] at h
  obtain ⟨t1, h1, h⟩ := h
  rw [Option.bind_eq_some_iff] at h
  obtain ⟨t2, h2, h⟩ := h
  rw [Option.bind_eq_some_iff] at h
  obtain ⟨⟨us, t3⟩, h3, h⟩ := h
  rw [Option.map_eq_some_iff] at h
  obtain ⟨⟨vs, t4⟩, h4, h⟩ := h
  simp only [Prod.mk.injEq] at h
  refine ⟨t0, t1, t2, t3, t4, us, vs, h0, h1, h2, h3, by decide +kernel, ?_, h4, by decide +kernel, ?_⟩
  · rw [h.1]; decide +kernel
  · rw [h.2]; decide +kernel

/-- C103: after one search the deletion of a subscription has no effect: the tag is still reported to it. -/
theorem C103_delete_ignored : ∃ t0 t1 t2 t3 us, newSplay toyEncoder forkSubs = some t0 ∧
    t0.applyCall toyEncoder (.search [0x40#8]) = some t1 ∧
    t1.applyCall toyEncoder (.delete (oneSub "http://c" "010")) = some t2 ∧ t2 = t1 ∧
    t2.search [0x40#8] = some (us, t3) ∧ "http://c".toList ∈ us := by
  have h : ((newSplay toyEncoder forkSubs).bind fun t0 => (t0.applyCall toyEncoder (.search [0x40#8])).bind fun t1 =>
      (t1.applyCall toyEncoder (.delete (oneSub "http://c" "010"))).bind fun t2 =>
      (t2.search [0x40#8]).map fun p => (decide (t2 = t1), p.1)) =
      some (true, ["http://c".toList]) := by decide +kernel
  rw [Option.bind_eq_some_iff] at h
  obtain ⟨t0, h0, h⟩ := h
  rw [Option.bind_eq_some_iff] at h
  obtain ⟨t1, h1, h⟩ := h
  rw [Option.bind_eq_some_iff] at h
  obtain ⟨t2, h2, h⟩ := h
  rw [Option.map_eq_some_iff] at h
  obtain ⟨⟨us, t3⟩, h3, h⟩ := h
  simp only [Prod.mk.injEq, decide_eq_true_eq] at h
  refine ⟨t0, t1, t2, t3, us, h0, h1, h2, h.1, h3, ?_⟩
  rw [h.2]
  decide +kernel

/-- C103: after one search the deletion of a filter that was never given takes away another subscription: no
    search of the tag reports it any more. -/
theorem C103_delete_other : ∃ t0 t1 t2 t3 us, newSplay toyEncoder forkSubs = some t0 ∧
    t0.applyCall toyEncoder (.search [0x40#8]) = some t1 ∧
    (∀ u, ("10".toList, u) ∉ toByteSubscriptions toyEncoder forkSubs) ∧
    t1.applyCall toyEncoder (.delete (oneSub "http://x" "10")) = some t2 ∧
    t2.search [0x40#8] = some (us, t3) ∧ "010".toList <+: bitsOf [0x40#8] ∧ us = ["http://a".toList] := by
  have h : ((newSplay toyEncoder forkSubs).bind fun t0 => (t0.applyCall toyEncoder (.search [0x40#8])).bind fun t1 =>
      (t1.applyCall toyEncoder (.delete (oneSub "http://x" "10"))).bind fun t2 =>
      (t2.search [0x40#8]).map fun p => p.1) = some ["http://a".toList] := by decide +kernel
  rw [Option.bind_eq_some_iff] at h
  obtain ⟨t0, h0, h⟩ := h
  rw [Option.bind_eq_some_iff] at h
  obtain ⟨t1, h1, h⟩ := h
  rw [Option.bind_eq_some_iff] at h
  obtain ⟨t2, h2, h⟩ := h
  rw [Option.map_eq_some_iff] at h
  obtain ⟨⟨us, t3⟩, h3, h⟩ := h
  refine ⟨t0, t1, t2, t3, us, h0, h1, ?_, h2, h3, by decide +kernel, h⟩
  intro u hu
  rw [forkSubs_flat] at hu
  have : ∀ e ∈ [("0".toList, "http://a".toList), ("001".toList, "http://b".toList),
    ("010".toList, "http://c".toList), ("1".toList, "http://d".toList)], e.1 ≠ "10".toList := by decide +kernel
  exact this _ hu rfl

/-- C103: after one search and one addition a search panics for a tag that is as long as every filter ever
    given. -/
theorem C103_long_panics : ∃ t0 t1 t2, newSplay toyEncoder forkSubs = some t0 ∧
    t0.applyCall toyEncoder (.search [0x40#8]) = some t1 ∧
    t1.applyCall toyEncoder (.add (oneSub "http://n" "10111111")) = some t2 ∧
    LongEnough (fun k u => (k, u) ∈ toByteSubscriptions toyEncoder forkSubs ∨ (k, u) = ("10111111".toList, "http://n".toList))
      [0x5F#8] ∧ t2.search [0x5F#8] = none := by
  have h : ((newSplay toyEncoder forkSubs).bind fun t0 => (t0.applyCall toyEncoder (.search [0x40#8])).bind fun t1 =>
      (t1.applyCall toyEncoder (.add (oneSub "http://n" "10111111"))).map fun t2 => (t2.search [0x5F#8]).isNone) =
      some true := by decide +kernel
  rw [Option.bind_eq_some_iff] at h
  obtain ⟨t0, h0, h⟩ := h
  rw [Option.bind_eq_some_iff] at h
  obtain ⟨t1, h1, h⟩ := h
  rw [Option.map_eq_some_iff] at h
  obtain ⟨t2, h2, h⟩ := h
  refine ⟨t0, t1, t2, h0, h1, h2, ⟨by simp, ?_⟩, Option.isNone_iff_eq_none.mp h⟩
  rintro k u (h | h)
  · rw [forkSubs_flat] at h
    have : ∀ e ∈ [("0".toList, "http://a".toList), ("001".toList, "http://b".toList),
      ("010".toList, "http://c".toList), ("1".toList, "http://d".toList)], e.1.length ≤ 8 := by decide +kernel
    exact this (k, u) h
  · cases h
    decide +kernel

end Gosstrak
