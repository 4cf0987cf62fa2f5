import Verif.Props.PatriciaUpdate
import Verif.Proofs.PlacedSearch

/-! # C100: the Patricia trie after any history of additions and deletions -/
namespace Gosstrak

open PNode

/-- all filters that the calls of a history mention are bit strings -/
def BitCalls (mk : Encoder) (ops : List SubsOp) : Prop :=
  ∀ s, SubsOp.add s ∈ ops ∨ SubsOp.delete s ∈ ops → ∀ k ∈ mapKeys (toByteSubscriptions mk s), IsBitStr k

/-- C100: after any history of additions and deletions, those inside edges included, and for any ID, the
    trie panics exactly if the search reaches beyond the end of the ID, and otherwise reports exactly the
    URIs of the nodes of the placed trie whose tests the ID passes, on one chain. -/
theorem C100_history (mk : Encoder) (tr : Translator) (sub : Subs) (ops : List SubsOp)
    (hu : UrisNonEmpty sub) (hbit : ∀ k u, (k, u) ∈ toByteSubscriptions mk sub → IsBitStr k)
    (hops : BitCalls mk ops) (pc id : List Byte) :
    ((placedAfter mk sub ops).Overruns id → (trieAfter mk sub ops).searchEngine tr pc id = none) ∧
    (¬ (placedAfter mk sub ops).Overruns id →
      ∃ uris, (placedAfter mk sub ops).Reports id uris ∧
        (trieAfter mk sub ops).searchEngine tr pc id = finishSearch tr pc id uris) := by
  obtain ⟨h0, h⟩ := placed_search (placed_history mk sub ops hu hbit hops) id
  refine ⟨fun ho => by rw [PNode.searchEngine, h0 ho], fun ho => ?_⟩
  obtain ⟨uris, h1, h2⟩ := h ho
  exact ⟨uris, h1, by rw [PNode.searchEngine, h2]⟩

/-- The placed trie says what is reported: there is one list of reports for an ID. -/
theorem C100_reports_unique (v : PlacedTrie) (id : List Byte) (a b : List Str)
    (ha : v.Reports id a) (hb : v.Reports id b) : a = b := placed_reports_unique ha hb

/-- C100: whatever the history and the ID, a reported URI is one that the trie was built with or that
    an addition of the history brought. -/
theorem C100_known (mk : Encoder) (sub : Subs) (ops : List SubsOp)
    (hu : UrisNonEmpty sub) (hbit : ∀ k u, (k, u) ∈ toByteSubscriptions mk sub → IsBitStr k)
    (hops : BitCalls mk ops) (id : List Byte) (uris : List Str)
    (h : (trieAfter mk sub ops).search id = some uris) (u : Str) (hm : u ∈ uris) :
    (∃ k, (k, u) ∈ toByteSubscriptions mk sub) ∨
    ∃ s, SubsOp.add s ∈ ops ∧ ∃ k, (k, u) ∈ toByteSubscriptions mk s := by
  have hp := placed_history mk sub ops hu hbit hops
  obtain ⟨m, l, hr, hne⟩ := search_uris _ [] [] id uris h u hm
  obtain ⟨-, -, hs⟩ := (hp.2.2.2 _ _ _).mp hr
  have key := placed_stored (ops.flatMap (keyOps mk))
    (fun u => u = [] ∨ (∃ k, (k, u) ∈ toByteSubscriptions mk sub) ∨
      ∃ s, SubsOp.add s ∈ ops ∧ ∃ k, (k, u) ∈ toByteSubscriptions mk s) (Or.inl rfl) (placedFresh mk sub) (by
    intro m
    have hst : (placedFresh mk sub).stored m = (FreshMap mk sub m).getD [] := rfl
    rw [hst]
    cases hf : FreshMap mk sub m with
    | none => exact Or.inl rfl
    | some w =>
      right; left
      refine ⟨m, ?_⟩
      rw [Option.getD_some]
      unfold FreshMap at hf
      split at hf
      · simp at hf
      · exact mapGet_mem hf) (by
    intro k u hk
    obtain ⟨op, ho1, ho2⟩ := List.mem_flatMap.mp hk
    cases op with
    | add s =>
      simp only [keyOps, List.mem_map, KeyOp.add.injEq] at ho2
      obtain ⟨k', hk', rfl, rfl⟩ := ho2
      cases hg : mapGet (toByteSubscriptions mk s) k' with
      | none => exact Or.inl rfl
      | some w => exact Or.inr (Or.inr ⟨s, ho1, k', mapGet_mem hg⟩)
    | delete s => simp [keyOps] at ho2) m
  rcases key with h | h
  · exact absurd (hs.symm.trans h) hne
  · rw [show (List.foldl PlacedTrie.step (placedFresh mk sub) (ops.flatMap (keyOps mk))).stored m = u from hs] at h
    exact h

/-- C100: a failing addition cannot be taken back. If the filter `k` ends strictly inside an edge and
    there are nodes both ways behind the next node `q`, deleting `k` after its addition changes no
    search. -/
theorem C100_no_undo (mk : Encoder) (sub : Subs) (ops : List SubsOp)
    (hu : UrisNonEmpty sub) (hbit : ∀ k u, (k, u) ∈ toByteSubscriptions mk sub → IsBitStr k)
    (hops : BitCalls mk ops) (k uri q : Str) (hk : IsBitStr k)
    (hin : InsideEdge (placedAfter mk sub ops).nodes k)
    (hq : firstAbove (placedAfter mk sub ops).nodes k = q)
    (h1 : ∃ m ∈ (placedAfter mk sub ops).nodes, q ++ ['1'] <+: m)
    (h0 : ∃ m ∈ (placedAfter mk sub ops).nodes, q ++ ['0'] <+: m)
    (id : List Byte) :
    (((trieAfter mk sub ops).add k uri).delete k).search id = ((trieAfter mk sub ops).add k uri).search id := by
  have hp := placed_add (placed_history mk sub ops hu hbit hops) k uri hk
  have hd := placed_delete hp k hk
  have hsame : ((placedAfter mk sub ops).step (.add k uri)).step (.delete k) = (placedAfter mk sub ops).step (.add k uri) := by
    have hstep : (placedAfter mk sub ops).step (.add k uri) =
        ⟨(placedAfter mk sub ops).nodes.map fun m => if q <+: m then k ++ m.drop q.length else m,
         fun m => if k <+: m then
            ((placedAfter mk sub ops).place (q ++ m.drop k.length)).take k.length ++
              ((placedAfter mk sub ops).place (q ++ m.drop k.length)).drop q.length
          else (placedAfter mk sub ops).place m,
         fun m => if m = k then [] else if k <+: m then (placedAfter mk sub ops).stored (q ++ m.drop k.length)
          else (placedAfter mk sub ops).stored m⟩ := by
      exact step_inside _ k uri q hin hq
    rw [hstep]
    have above : ∀ c : Char, (∃ m ∈ (placedAfter mk sub ops).nodes, q ++ [c] <+: m) →
        ∃ m ∈ (placedAfter mk sub ops).nodes.map (fun m => if q <+: m then k ++ m.drop q.length else m), k ++ [c] <+: m := by
      rintro c ⟨m, hm, y, rfl⟩
      refine ⟨k ++ (q ++ [c] ++ y).drop q.length, List.mem_map.mpr ⟨_, hm, ?_⟩, ?_⟩
      · rw [if_pos (by rw [List.append_assoc]; exact List.prefix_append _ _)]
      · rw [List.append_assoc, List.drop_left, List.singleton_append]
        exact ⟨y, by simp⟩
    unfold PlacedTrie.step
    dsimp only
    by_cases hc : k ∉ (placedAfter mk sub ops).nodes.map (fun m => if q <+: m then k ++ m.drop q.length else m) ∨
        ∀ n ∈ (placedAfter mk sub ops).nodes.map (fun m => if q <+: m then k ++ m.drop q.length else m), n = k
    · rw [if_pos hc]
    · rw [if_neg hc, if_pos ⟨above '1' h1, above '0' h0⟩]
      congr 1
      funext m
      by_cases hm : m = k
      · rw [if_pos hm, if_pos hm]
      · rw [if_neg hm]
  rw [hsame] at hd
  obtain ⟨a0, a⟩ := placed_search hd id
  obtain ⟨b0, b⟩ := placed_search hp id
  by_cases ho : ((placedAfter mk sub ops).step (.add k uri)).Overruns id
  · rw [a0 ho, b0 ho]
  · obtain ⟨a, a1, a2⟩ := a ho
    obtain ⟨b, b1, b2⟩ := b ho
    rw [a2, b2, placed_reports_unique a1 b1]

/-- C100: adding the filter a second time works. After any history without additions inside edges, a
    filter that ends inside an edge and is added twice is reported for every ID that starts with it,
    unless the search panics (the first addition alone does not store it, C20). -/
theorem C100_second_addition (mk : Encoder) (sub : Subs) (ops : List SubsOp)
    (hu : UrisNonEmpty sub) (hbit : ∀ k u, (k, u) ∈ toByteSubscriptions mk sub → IsBitStr k)
    (hi : Intact (freshView mk sub) (ops.flatMap (keyOps mk)))
    (k uri uri' : Str) (hk : IsBitStr k) (huri : uri ≠ [])
    (hin : InsideEdge (viewAfter mk sub ops).nodes k) (id : List Byte) (hpre : k <+: bitsOf id)
    (uris : List Str) (hs : (((trieAfter mk sub ops).add k uri').add k uri).search id = some uris) :
    uri ∈ uris := by
  have hsearch := hs
  clear hs
  have hs := placed_shows (shows_history mk sub ops hu hbit hi) (by
    have := (placed_history mk sub ops hu hbit (by
      intro s hs k hk
      have hall : ∀ (l : List KeyOp) (v : TrieView), Intact v l →
          ∀ op ∈ l, match op with | .add k _ => IsBitStr k | .delete k => IsBitStr k := by
        intro l
        induction l with
        | nil => intro v _ op ho; simp at ho
        | cons a l ih =>
          intro v hv op ho
          cases a with
          | add k' u' =>
            rcases List.mem_cons.mp ho with rfl | ho
            · exact hv.1
            · exact ih _ hv.2.2.2 op ho
          | delete k' =>
            rcases List.mem_cons.mp ho with rfl | ho
            · exact hv.1
            · exact ih _ hv.2 op ho
      rcases hs with hs | hs
      · exact hall _ _ hi (.add k ((mapGet (toByteSubscriptions mk s) k).getD [])) (List.mem_flatMap.mpr ⟨_, hs, List.mem_map.mpr ⟨k, hk, rfl⟩⟩)
      · exact hall _ _ hi (.delete k) (List.mem_flatMap.mpr ⟨_, hs, List.mem_map.mpr ⟨k, hk, rfl⟩⟩))).2.2.1
    exact this)
  generalize hv : (PlacedTrie.mk (viewAfter mk sub ops).nodes (fun m => List.range m.length)
    (fun m => ((viewAfter mk sub ops).stored m).getD [])) = v at hs
  have hnodes : v.nodes = (viewAfter mk sub ops).nodes := by rw [← hv]
  have hplace : ∀ m, v.place m = List.range m.length := by intro m; rw [← hv]
  rw [← hnodes] at hin
  have h1 := placed_add hs k uri' hk
  have h2 := placed_add h1 k uri hk
  obtain ⟨q, hq⟩ : ∃ q, firstAbove v.nodes k = q := ⟨_, rfl⟩
  have hstep : v.step (.add k uri') =
      ⟨v.nodes.map fun m => if q <+: m then k ++ m.drop q.length else m,
       fun m => if k <+: m then (v.place (q ++ m.drop k.length)).take k.length ++
          (v.place (q ++ m.drop k.length)).drop q.length else v.place m,
       fun m => if m = k then [] else if k <+: m then v.stored (q ++ m.drop k.length) else v.stored m⟩ := by
    exact step_inside v k uri' q hin hq
  -- the next node
  obtain ⟨hnk, n, hn, hkn⟩ := hin
  have hspec := meetAll_spec (v.nodes.filter fun n => k <+: n) (by
      intro h
      have : n ∈ v.nodes.filter fun n => k <+: n := by
        rw [List.mem_filter]; exact ⟨hn, by simpa using hkn⟩
      rw [h] at this
      simp at this)
  rw [show meetAll (v.nodes.filter fun n => k <+: n) = q from hq] at hspec
  have hkq : k <+: q := hspec.2 k (by intro m hm; simpa using (List.mem_filter.mp hm).2)
  have hqn : ∀ m ∈ v.nodes, k <+: m → q <+: m := by
    intro m hm hkm
    exact hspec.1 m (List.mem_filter.mpr ⟨hm, by simpa using hkm⟩)
  have hqmem : q ∈ v.nodes := by
    rw [hnodes]
    obtain ⟨q', ⟨g1, g2, -, g4⟩, -⟩ := shows_inside (shows_history mk sub ops hu hbit hi) k uri' hk
      ⟨by rw [← hnodes]; exact hnk, n, by rw [← hnodes]; exact hn, hkn⟩
    have : q' = q := by
      apply prefix_antisymm
      · exact hspec.2 q' (by
          intro m hm
          obtain ⟨x, y⟩ := List.mem_filter.mp hm
          exact g4 m (by rw [← hnodes]; exact x) (by simpa using y))
      · exact hqn q' (by rw [hnodes]; exact g1) g2
    rw [← this]
    exact g1
  have hkmem : k ∈ (v.step (.add k uri')).nodes := by
    rw [hstep]
    exact List.mem_map.mpr ⟨q, hqmem, by rw [if_pos List.prefix_rfl]; simp⟩
  have hstep2 : (v.step (.add k uri')).step (.add k uri) =
      ⟨(v.step (.add k uri')).nodes, (v.step (.add k uri')).place,
        fun m => if m = k then uri else (v.step (.add k uri')).stored m⟩ := step_known _ k uri hkmem
  rw [hstep2] at h2
  obtain ⟨g0, g⟩ := placed_search h2 id
  obtain ⟨uris', ⟨hits, -, b, hu'⟩, c⟩ := g fun ho => by rw [g0 ho] at hsearch; cases hsearch
  rw [c, Option.some.injEq] at hsearch
  subst hsearch
  rw [hu']
  refine List.mem_map.mpr ⟨(k, uri), (b k uri).mpr ⟨hkmem, if_pos rfl, huri, ?_, ?_⟩, rfl⟩
  · intro i p hip
    have hpk : (v.step (.add k uri')).place k = List.range k.length := by
      rw [hstep]
      dsimp only
      rw [if_pos List.prefix_rfl, hplace]
      simp only [List.drop_length, List.append_nil]
      rw [List.drop_eq_nil_of_le (by simp), List.append_nil, List.take_range, Nat.min_eq_left hkq.length_le]
    dsimp only at hip
    rw [hpk] at hip
    have hi' : i < k.length := by
      apply Classical.byContradiction
      intro hge
      rw [List.getElem?_eq_none (by simpa using hge)] at hip
      simp at hip
    rw [List.getElem?_range hi'] at hip
    simp only [Option.some.injEq] at hip
    subst hip
    obtain ⟨y, hy⟩ := hpre
    rw [← hy, List.getElem?_append_left hi']
  · intro m hm hmk hne
    dsimp only at hm
    have hlt : m.length < k.length := by
      rcases Nat.lt_or_ge m.length k.length with h | h
      · exact h
      · exact absurd (hmk.eq_of_length_le h) hne
    have hkm : ¬ k <+: m := fun h => by have := h.length_le; omega
    have hpm : (v.step (.add k uri')).place m = List.range m.length := by
      rw [hstep]
      dsimp only
      rw [if_neg hkm, hplace]
    dsimp only
    rw [hpm]
    have hpa : placeAfter (List.range m.length) = m.length := by
      cases hm0 : m.length with
      | zero => rfl
      | succ n => simp [placeAfter, List.range_succ]
    rw [hpa]
    obtain ⟨y, hy⟩ := hpre
    rw [← hy, List.getElem?_append_left hlt]

/-- C100, refuted: a search of a tag that is longer than all filters given so far panics. -/
theorem C100_crash :
    let sub : Subs := [("http://a".toList, ["urn:epc:pat:s:00".toList]),
      ("http://b".toList, ["urn:epc:pat:s:010010".toList]), ("http://c".toList, ["urn:epc:pat:s:010011".toList])]
    let ops : List SubsOp := [.add [("http://d".toList, ["urn:epc:pat:s:01".toList])],
      .add [("http://e".toList, ["urn:epc:pat:s:0111111".toList])]]
    (∀ k ∈ mapKeys (toByteSubscriptions toyEncoder sub) ++ ops.flatMap (AddedKeys toyEncoder), k.length < 8) ∧
    (trieAfter toyEncoder sub ops).search [0x67#8] = none := by decide +kernel

-- test: that history; what is looked for where, an ID that has all places, and its reports
example :
    let sub : Subs := [("http://a".toList, ["urn:epc:pat:s:00".toList]),
      ("http://b".toList, ["urn:epc:pat:s:010010".toList]), ("http://c".toList, ["urn:epc:pat:s:010011".toList])]
    let ops : List SubsOp := [.add [("http://d".toList, ["urn:epc:pat:s:01".toList])],
      .add [("http://e".toList, ["urn:epc:pat:s:0111111".toList])]]
    let v := placedAfter toyEncoder sub ops
    ("0111111".toList ∈ v.nodes ∧ v.place "0111111".toList = [0, 1, 5, 6, 7, 8, 9] ∧
      v.stored "0111111".toList = "http://e".toList) ∧
    (v.place "011".toList = [0, 1, 5] ∧ v.stored "011".toList = "http://c".toList) ∧
    ((∀ n ∈ v.nodes, ∀ p ∈ v.place n, p < 8 * 2) ∧
      (trieAfter toyEncoder sub ops).search [0x67#8, 0xc0#8] = some ["http://c".toList, "http://e".toList]) ∧
    -- the addition of "01" is inside an edge, behind which nodes lie both ways
    InsideEdge (placedFresh toyEncoder sub).nodes "01".toList ∧
    firstAbove (placedFresh toyEncoder sub).nodes "01".toList = "01001".toList ∧
    "010011".toList ∈ (placedFresh toyEncoder sub).nodes ∧ "010010".toList ∈ (placedFresh toyEncoder sub).nodes ∧
    -- adding it twice
    ((newPatricia toyEncoder sub).add "01".toList "http://d".toList).search [0x48#8] = some ["http://b".toList] ∧
    (((newPatricia toyEncoder sub).add "01".toList "http://d".toList).add "01".toList "http://d".toList).search [0x48#8] =
      some ["http://d".toList, "http://b".toList] := by decide +kernel

end Gosstrak
