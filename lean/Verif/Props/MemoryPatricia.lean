import Verif.Proofs.MemoryPatricia
import Verif.Props.Memory
import Verif.Props.PatriciaUpdate

/-! # C78: the Patricia trie in memory -/
namespace Gosstrak

/-- C78: `NewPatriciaTrie` terminates and leaves a tree in memory, the one of the model. -/
theorem C78_new (mk : Encoder) (sub : Subs) :
    ∃ N, ∀ n, N ≤ n → ∀ h, ∃ s, newPatMem mk n h sub = .ok s ∧
      IsTreeAt s.heap (some s.root) (newPatricia mk sub).cells := by
  generalize hb : toByteSubscriptions mk sub = bsub
  refine ⟨maxKeyLength bsub + 1, fun n hn h => ?_⟩
  have hlen : (lcp (mapKeys bsub)).length ≤ maxKeyLength bsub := by
    cases hk : mapKeys bsub with
    | nil => simp [lcp]
    | cons k ks =>
      have hmem : k ∈ mapKeys bsub := by rw [hk]; simp
      have hp : lcp (k :: ks) <+: k := (lcp_spec (k :: ks) (by simp)).1 k (by simp)
      have := key_len hmem
      have := hp.length_le
      omega
  have hx2 : h.alloc.2 = h.next := rfl
  obtain ⟨h', p1, p0, d1, d0, i1, i2, i3, i4, i5, i6, i7, -⟩ := patBuild_refines bsub n (lcp (mapKeys bsub))
    (h.alloc.1.upd h.next fun c => { c with f := some (newFilter (lcp (mapKeys bsub)) 0) }) h.next []
    (some (newFilter (lcp (mapKeys bsub)) 0)) hlen (by omega) (by simp [upd_get, alloc_get])
    (by rw [upd_next]; show h.next < h.next + 1; omega)
  have hnx : (h.alloc.1.upd h.next fun c => { c with f := some (newFilter (lcp (mapKeys bsub)) 0) }).next = h.next + 1 := rfl
  refine ⟨⟨h', h.next⟩, ?_, h.next :: (d1 ++ d0), ?_, ?_⟩
  · simp only [newPatMem, hb, hx2, i1, Out.bind]
  · rw [newPatricia, hb, newPatriciaFrom]
    obtain ⟨k, rfl⟩ : ∃ k, n = (maxKeyLength bsub + 1) + k := ⟨n - (maxKeyLength bsub + 1), by omega⟩
    rw [build_fuel bsub k (maxKeyLength bsub + 1) (lcp (mapKeys bsub)) (by omega)] at i3 i4
    refine ⟨h.next, p1, p0, d1, d0, rfl, i2, i3, i4, rfl, ?_, ?_, i6⟩
    · intro hx; have := i5 _ (List.mem_append_left _ hx); omega
    · intro hx; have := i5 _ (List.mem_append_right _ hx); omega
  · intro x hx
    show x < h'.next
    rcases List.mem_cons.mp hx with rfl | hx
    · omega
    · exact (i5 x hx).2

theorem isTreeAt_leaves {h h' : Mem} {a : Nat} {d : List Nat} {t : SNode} (hd : ∀ x ∈ d, x < h.next)
    (hl : Leaves h h' a d t) : IsTreeAt h' (some a) t := by
  obtain ⟨d', i1, i2, i3, -⟩ := hl
  exact ⟨d', i1, holds_lt hd i2 i3⟩

/-- C78: `AddSubscription` and `DeleteSubscription` terminate without a panic and leave the tree of the
    model. -/
theorem C78_call (mk : Encoder) (t : PNode) (op : SubsOp) :
    ∃ N, ∀ n, N ≤ n → ∀ s : PatMem, IsTreeAt s.heap (some s.root) t.cells →
      ∃ s', s.call mk n op = .ok s' ∧ s'.root = s.root ∧ IsTreeAt s'.heap (some s'.root) (t.applyOp mk op).cells := by
  cases op with
  | add sub =>
    simp only [PatMem.call, PNode.applyOp, PNode.addSubscription]
    generalize mapKeys (toByteSubscriptions mk sub) = ks
    induction ks generalizing t with
    | nil => exact ⟨0, fun n _ s hs => ⟨s, rfl, rfl, hs⟩⟩
    | cons k ks ih =>
      obtain ⟨N, hN⟩ := ih (t.add k ((mapGet (toByteSubscriptions mk sub) k).getD []))
      refine ⟨t.cells.count + N, fun n hn s ⟨d, hs, hd⟩ => ?_⟩
      obtain ⟨h', i1, i2⟩ := patAdd_refines ((mapGet (toByteSubscriptions mk sub) k).getD []) t s.heap s.root d k n
        hs hd (by omega)
      obtain ⟨s', j1, j2, j3⟩ := hN n (by omega) ⟨h', s.root⟩ (isTreeAt_leaves hd i2)
      refine ⟨s', ?_, j2, ?_⟩
      · simp only [Out.loop, i1, Out.bind]; exact j1
      · rw [List.foldl_cons]; exact j3
  | delete sub =>
    simp only [PatMem.call, PNode.applyOp, PNode.deleteSubscription]
    generalize mapKeys (toByteSubscriptions mk sub) = ks
    induction ks generalizing t with
    | nil => exact ⟨0, fun n _ s hs => ⟨s, rfl, rfl, hs⟩⟩
    | cons k ks ih =>
      obtain ⟨N, hN⟩ := ih (t.delete k)
      refine ⟨t.cells.count + N, fun n hn s ⟨d, hs, hd⟩ => ?_⟩
      obtain ⟨h', i1, i2⟩ := patDelete_refines t s.heap s.root d k n hs hd (by omega)
      obtain ⟨s', j1, j2, j3⟩ := hN n (by omega) ⟨h', s.root⟩ (isTreeAt_leaves hd i2)
      refine ⟨s', ?_, j2, ?_⟩
      · simp only [Out.loop, i1, Out.bind]; exact j1
      · rw [List.foldl_cons]; exact j3

/-- C78: a search terminates and gives the result of the model; it writes nothing. -/
theorem C78_search (t : PNode) : ∃ N, ∀ n, N ≤ n → ∀ (h : Mem) (a : Nat), IsTreeAt h (some a) t.cells → ∀ id,
    patSearch n h a id = match t.search id with
      | none => .panic
      | some r => .ok r :=
  ⟨t.cells.count, fun n hn h a ⟨d, hh, _⟩ id => patSearch_refines id t h a d n hh hn⟩

/-- C78: after every history of calls memory holds the tree of the model. -/
theorem C78_history (mk : Encoder) (sub : Subs) (ops : List SubsOp) :
    ∃ N, ∀ n, N ≤ n → ∀ h, ∃ s0 s, newPatMem mk n h sub = .ok s0 ∧ Out.loop (PatMem.call mk n) ops s0 = .ok s ∧
      s.root = s0.root ∧ IsTreeAt s.heap (some s.root) (trieAfter mk sub ops).cells := by
  have key : ∀ (ops : List SubsOp) (t : PNode), ∃ N, ∀ n, N ≤ n → ∀ s : PatMem,
      IsTreeAt s.heap (some s.root) t.cells → ∃ s', Out.loop (PatMem.call mk n) ops s = .ok s' ∧ s'.root = s.root ∧
        IsTreeAt s'.heap (some s'.root) (ops.foldl (PNode.applyOp mk) t).cells := by
    intro ops
    induction ops with
    | nil => exact fun t => ⟨0, fun n _ s hs => ⟨s, rfl, rfl, hs⟩⟩
    | cons op ops ih =>
      intro t
      obtain ⟨N1, h1⟩ := C78_call mk t op
      obtain ⟨N2, h2⟩ := ih (t.applyOp mk op)
      refine ⟨N1 + N2, fun n hn s hs => ?_⟩
      obtain ⟨s1, i1, i2, i3⟩ := h1 n (by omega) s hs
      obtain ⟨s', j1, j2, j3⟩ := h2 n (by omega) s1 i3
      exact ⟨s', by rw [Out.loop, i1]; exact j1, j2.trans i2, j3⟩
  obtain ⟨N1, h1⟩ := C78_new mk sub
  obtain ⟨N2, h2⟩ := key ops (newPatricia mk sub)
  refine ⟨N1 + N2, fun n hn h => ?_⟩
  obtain ⟨s0, i1, i2⟩ := h1 n (by omega) h
  obtain ⟨s, j1, j2, j3⟩ := h2 n (by omega) s0 i2
  exact ⟨s0, s, i1, j1, j2, j3⟩

/-- C78: what a search reports from memory after a history in which no added filter ends strictly
    inside an edge. -/
theorem C78_reports (mk : Encoder) (sub : Subs) (ops : List SubsOp)
    (hu : UrisNonEmpty sub) (hbit : ∀ k u, (k, u) ∈ toByteSubscriptions mk sub → IsBitStr k)
    (hi : Intact (freshView mk sub) (ops.flatMap (keyOps mk))) (id : List Byte) (hid : id ≠ [])
    (hc : ∀ n ∈ (viewAfter mk sub ops).nodes, n.length ≤ 8 * id.length) :
    ∃ N, ∀ n, N ≤ n → ∀ h, ∃ s0 s uris, newPatMem mk n h sub = .ok s0 ∧
      Out.loop (PatMem.call mk n) ops s0 = .ok s ∧ patSearch n s.heap s.root id = .ok uris ∧
      ReportsOf (viewAfter mk sub ops).stored id uris := by
  obtain ⟨uris, g1, g2⟩ := shows_search (shows_history mk sub ops hu hbit hi) id hid hc
  obtain ⟨N1, h1⟩ := C78_history mk sub ops
  obtain ⟨N2, h2⟩ := C78_search (trieAfter mk sub ops)
  refine ⟨N1 + N2, fun n hn h => ?_⟩
  obtain ⟨s0, s, i1, i2, -, i4⟩ := h1 n (by omega) h
  refine ⟨s0, s, uris, i1, i2, ?_, g1⟩
  rw [h2 n (by omega) s.heap s.root i4 id, g2]

/-- the reports after a history run in an empty memory -/
def patMatches (mk : Encoder) (n : Nat) (sub : Subs) (ops : List SubsOp) (id : List Byte) : Option (List Str) :=
  match newPatMem mk n {} sub with
  | .ok s => match Out.loop (PatMem.call mk n) ops s with
    | .ok s => match patSearch n s.heap s.root id with
      | .ok r => some r
      | _ => none
    | _ => none
  | _ => none

example : patMatches toyEncoder 12 toySub3
    [.add [("http://c".toList, ["urn:epc:pat:s:0011000".toList])],
      .delete [("http://a".toList, ["urn:epc:pat:s:0".toList])]] [0x30#8] =
    some ["http://b".toList, "http://c".toList] := by decide +kernel

example : patMatches toyEncoder 12 toySub3 [] [0x30#8] =
    ((newPatricia toyEncoder toySub3).search [0x30#8]) := by decide +kernel

end Gosstrak
