import Verif.Props.Patricia
import Verif.Proofs.PatriciaDamage

/-! # C20, C21: adding to and deleting from a Patricia trie -/
namespace Gosstrak

open PNode

/-! ## C20 and C21 -/

/-- the trie after a history of calls -/
abbrev trieAfter (mk : Encoder) (sub : Subs) (ops : List SubsOp) : PNode :=
  ops.foldl (PNode.applyOp mk) (newPatricia mk sub)

/-- its nodes and its map -/
abbrev viewAfter (mk : Encoder) (sub : Subs) (ops : List SubsOp) : TrieView :=
  (ops.flatMap (keyOps mk)).foldl TrieView.step (freshView mk sub)

/-- C20 and C21: over any history in which no added filter ends strictly inside an edge, the trie
    reports exactly the stored filters that start the ID. -/
theorem C20_C21_history (mk : Encoder) (tr : Translator) (sub : Subs) (ops : List SubsOp)
    (hu : UrisNonEmpty sub) (hbit : ∀ k u, (k, u) ∈ toByteSubscriptions mk sub → IsBitStr k)
    (hi : Intact (freshView mk sub) (ops.flatMap (keyOps mk)))
    (pc id : List Byte) (hid : id ≠ [])
    (hc : ∀ n ∈ (viewAfter mk sub ops).nodes, n.length ≤ 8 * id.length) :
    ∃ uris, ReportsOf (viewAfter mk sub ops).stored id uris ∧
      (trieAfter mk sub ops).searchEngine tr pc id = finishSearch tr pc id uris := by
  obtain ⟨uris, h1, h2⟩ := shows_search (shows_history mk sub ops hu hbit hi) id hid hc
  exact ⟨uris, h1, by rw [PNode.searchEngine, h2]⟩

/-- C20: after any such history, adding a filter keeps all others and makes it reported for every ID
    that is long enough iff it does not end strictly inside an edge. -/
theorem C20_add_iff (mk : Encoder) (sub : Subs) (ops : List SubsOp)
    (hu : UrisNonEmpty sub) (hbit : ∀ k u, (k, u) ∈ toByteSubscriptions mk sub → IsBitStr k)
    (hi : Intact (freshView mk sub) (ops.flatMap (keyOps mk)))
    (s : Subs) (k uri : Str) (hs : toByteSubscriptions mk s = [(k, uri)]) (hk : IsBitStr k)
    (huri : uri ≠ []) :
    (∀ id : List Byte, id ≠ [] →
      (∀ n ∈ k :: (viewAfter mk sub ops).nodes, n.length ≤ 8 * id.length) →
      ∃ uris, ReportsOf (fun k' => if k' = k then some uri else (viewAfter mk sub ops).stored k') id uris ∧
        ((trieAfter mk sub ops).addSubscription mk s).search id = some uris) ↔
    ¬ InsideEdge (viewAfter mk sub ops).nodes k := by
  have h := shows_history mk sub ops hu hbit hi
  have hadd : (trieAfter mk sub ops).addSubscription mk s = (trieAfter mk sub ops).add k uri := by
    simp [PNode.addSubscription, hs, mapKeys, mapGet, sortStrings, insertSorted]
  rw [hadd]
  constructor
  · intro hall hin
    obtain ⟨id, h1, h2, h3⟩ := inside_witness h k uri hk hin
    exact h3 (hall id h1 h2)
  · intro hin id hid hc
    exact shows_search (shows_add h k uri hk huri hin) id hid (by
      intro n hn
      simp only [TrieView.step, List.mem_append, List.mem_map] at hn
      rcases hn with hn | ⟨m, hm, rfl⟩
      · exact hc n hn
      · have := hc m (List.mem_cons_of_mem _ hm)
        have := (meet_right k m).length_le
        omega)

/-- C20, the failing case: the new filter is put in place of the next node `q` on its way. It is not
    reported, nor is the filter at `q`, and the filters below are reported by the wrong bits. -/
theorem C20_inside_exact (mk : Encoder) (sub : Subs) (ops : List SubsOp)
    (hu : UrisNonEmpty sub) (hbit : ∀ k u, (k, u) ∈ toByteSubscriptions mk sub → IsBitStr k)
    (hi : Intact (freshView mk sub) (ops.flatMap (keyOps mk)))
    (s : Subs) (k uri : Str) (hs : toByteSubscriptions mk s = [(k, uri)]) (hk : IsBitStr k)
    (hin : InsideEdge (viewAfter mk sub ops).nodes k) :
    ∃ q ∈ (viewAfter mk sub ops).nodes, k <+: q ∧ k ≠ q ∧
      (∀ m ∈ (viewAfter mk sub ops).nodes, k <+: m → q <+: m) ∧
      ∀ id : List Byte, id ≠ [] → (∀ n ∈ (viewAfter mk sub ops).nodes, n.length ≤ 8 * id.length) →
        ∃ uris, ReportsDamaged (viewAfter mk sub ops).stored k q id uris ∧
          ((trieAfter mk sub ops).addSubscription mk s).search id = some uris := by
  have hadd : (trieAfter mk sub ops).addSubscription mk s = (trieAfter mk sub ops).add k uri := by
    simp [PNode.addSubscription, hs, mapKeys, mapGet, sortStrings, insertSorted]
  obtain ⟨q, ⟨h1, h2, h3, h4⟩, h5⟩ := shows_inside (shows_history mk sub ops hu hbit hi) k uri hk hin
  refine ⟨q, h1, h2, h3, h4, ?_⟩
  rw [hadd]
  exact h5

/-- C21: after any such history, deleting a filter removes it and nothing else for every ID that is
    long enough, unless it is stored in the only node of the trie; then it stays. -/
theorem C21_delete_iff (mk : Encoder) (sub : Subs) (ops : List SubsOp)
    (hu : UrisNonEmpty sub) (hbit : ∀ k u, (k, u) ∈ toByteSubscriptions mk sub → IsBitStr k)
    (hi : Intact (freshView mk sub) (ops.flatMap (keyOps mk)))
    (s : Subs) (k uri : Str) (hs : toByteSubscriptions mk s = [(k, uri)]) (hk : IsBitStr k) :
    (∀ id : List Byte, id ≠ [] →
      (∀ n ∈ (viewAfter mk sub ops).nodes, n.length ≤ 8 * id.length) →
      ∃ uris, ReportsOf (fun k' => if k' = k then none else (viewAfter mk sub ops).stored k') id uris ∧
        ((trieAfter mk sub ops).deleteSubscription mk s).search id = some uris) ↔
    ((viewAfter mk sub ops).stored k = none ∨ ∃ n ∈ (viewAfter mk sub ops).nodes, n ≠ k) := by
  have h := shows_history mk sub ops hu hbit hi
  have hdel : (trieAfter mk sub ops).deleteSubscription mk s = (trieAfter mk sub ops).delete k := by
    simp [PNode.deleteSubscription, hs, mapKeys, sortStrings, insertSorted]
  rw [hdel]
  have hsd := shows_delete h k hk
  constructor
  · intro hall
    cases hst : (viewAfter mk sub ops).stored k with
    | none => exact Or.inl rfl
    | some u =>
      right
      apply Decidable.byContradiction
      intro hn
      obtain ⟨id, h1, h2, h3⟩ := last_witness h k u hst fun n hm =>
        Decidable.byContradiction fun e => hn ⟨n, hm, e⟩
      exact h3 (hall id h1 h2)
  · intro hcase id hid hc
    unfold TrieView.step at hsd
    dsimp only at hsd
    split at hsd
    · rename_i hall
      have hnone : (viewAfter mk sub ops).stored k = none := by
        rcases hcase with h | ⟨n, hn, hne⟩
        · exact h
        · exact absurd (hall n hn) hne
      have hsame : (fun k' => if k' = k then none else (viewAfter mk sub ops).stored k') =
          (viewAfter mk sub ops).stored := by
        funext k'
        by_cases e : k' = k
        · rw [if_pos e, e, hnone]
        · rw [if_neg e]
      rw [hsame]
      exact shows_search hsd id hid hc
    · exact shows_search hsd id hid fun n hn => hc n (List.mem_filter.mp hn).1

/-- A simple sufficient condition for histories, without the nodes of the trie: new filters are not
    proper prefixes of known ones, and no deletion leaves nothing. -/
theorem C20_C21_benign_history (mk : Encoder) (tr : Translator) (sub : Subs) (ops : List SubsOp)
    (hu : UrisNonEmpty sub) (hbit : ∀ k u, (k, u) ∈ toByteSubscriptions mk sub → IsBitStr k)
    (hb : Benign mk (FreshMap mk sub) (mapKeys (toByteSubscriptions mk sub)) ops)
    (pc id : List Byte) (hid : id ≠ [])
    (hW : ∀ w ∈ mapKeys (toByteSubscriptions mk sub) ++ ops.flatMap (AddedKeys mk),
      w.length ≤ 8 * id.length) :
    ∃ uris, ReportsOf (ops.foldl (MapAfter mk) (FreshMap mk sub)) id uris ∧
      (ops.foldl (PNode.applyOp mk) (newPatricia mk sub)).searchEngine tr pc id =
        finishSearch tr pc id uris := by
  obtain ⟨uris, h1, h2⟩ := stores_search
    (stores_ops mk ops _ _ _ (stores_fresh mk sub hu hbit) hb) id hid hW
  exact ⟨uris, h1, by rw [PNode.searchEngine, h2]⟩

/-- C20: adding one filter to a fresh trie keeps all others and makes it reported, if it is
    not a proper prefix of a stored filter, or if it is the common prefix of all of them. -/
theorem C20_add_one (mk : Encoder) (sub : Subs) (hu : UrisNonEmpty sub)
    (hbit : ∀ k u, (k, u) ∈ toByteSubscriptions mk sub → IsBitStr k)
    (k uri : Str) (hk : IsBitStr k) (huri : uri ≠ [])
    (hnew : k = lcp (mapKeys (toByteSubscriptions mk sub)) ∨
      ∀ w ∈ mapKeys (toByteSubscriptions mk sub), k <+: w → k = w)
    (id : List Byte) (hid : id ≠ [])
    (hW : ∀ w ∈ mapKeys (toByteSubscriptions mk sub) ++ [k], w.length ≤ 8 * id.length) :
    ∃ uris, ReportsOf (fun k' => if k' = k then some uri else FreshMap mk sub k') id uris ∧
      ((newPatricia mk sub).add k uri).search id = some uris := by
  have hs := stores_fresh mk sub hu hbit
  have hsafe : SafeAt [] (newPatricia mk sub) k := by
    rcases hnew with h | h
    · left
      rw [h, newPatricia, newPatriciaFrom]
      simp [paths, newFilter_str]
    · exact safe_of_W hs k h
  exact stores_search (stores_add hs k uri hk huri hsafe) id hid hW

/-- C21: deleting one filter from a fresh trie removes it and nothing else. -/
theorem C21_delete_one (mk : Encoder) (sub : Subs) (hu : UrisNonEmpty sub)
    (hbit : ∀ k u, (k, u) ∈ toByteSubscriptions mk sub → IsBitStr k)
    (k : Str) (hk : IsBitStr k)
    (id : List Byte) (hid : id ≠ [])
    (hW : ∀ w ∈ mapKeys (toByteSubscriptions mk sub), w.length ≤ 8 * id.length) :
    ∃ uris, ReportsOf (fun k' => if k' = k then none else FreshMap mk sub k') id uris ∧
      ((newPatricia mk sub).delete k).search id = some uris := by
  have hs := stores_fresh mk sub hu hbit
  refine stores_search (stores_delete' hs k hk ?_) id hid hW
  intro hl
  obtain ⟨u, f, h, hf⟩ := (isLeafWith_iff _ _).mp hl
  have : k = lcp (mapKeys (toByteSubscriptions mk sub)) := by
    rw [newPatricia, newPatriciaFrom] at h
    injection h with _ h2 _ _
    rw [← hf, ← h2, newFilter_str]
  simp [FreshMap, this]

-- test: a benign history
def toyOps : List SubsOp :=
  [.add [("http://c".toList, ["urn:epc:pat:s:0011".toList])],
   .delete [("http://a".toList, ["urn:epc:pat:s:0".toList])]]
example : (toyOps.foldl (PNode.applyOp toyEncoder) (newPatricia toyEncoder toySub3)).searchEngine
    (fun _ _ => some ("x".toList, false)) [] [0x30#8]
    = some ⟨"x".toList, ["http://c".toList], false⟩ := by decide +kernel

example : Benign toyEncoder (FreshMap toyEncoder toySub3)
    (mapKeys (toByteSubscriptions toyEncoder toySub3)) toyOps := by
  refine ⟨⟨?_, ?_⟩, ⟨?_, Or.inl ⟨"0011".toList, "http://c".toList, ?_⟩⟩, trivial⟩
  · unfold UrisNonEmpty; decide +kernel
  · decide +kernel
  · decide +kernel
  · decide +kernel

example : Intact (freshView toyEncoder toySub3) (toyOps.flatMap (keyOps toyEncoder)) := by
  decide +kernel

-- test: a new filter at a fork of the trie is a proper prefix of stored ones but not inside an edge;
-- one between the fork and a stored filter is
example :
    let sub : Subs := [("http://a".toList, ["urn:epc:pat:s:00110".toList]),
      ("http://b".toList, ["urn:epc:pat:s:00111".toList]), ("http://d".toList, ["urn:epc:pat:s:1".toList])]
    let fork : List SubsOp := [.add [("http://c".toList, ["urn:epc:pat:s:0011".toList])]]
    Intact (freshView toyEncoder sub) (fork.flatMap (keyOps toyEncoder)) ∧
    ¬ InsideEdge (viewAfter toyEncoder sub fork).nodes "0011".toList ∧
    InsideEdge (viewAfter toyEncoder sub fork).nodes "00".toList ∧
    (trieAfter toyEncoder sub fork).search [0x30#8] = some ["http://c".toList, "http://a".toList] ∧
    toByteSubscriptions toyEncoder [("http://c".toList, ["urn:epc:pat:s:00".toList])] =
      [("00".toList, "http://c".toList)] := by decide +kernel

/-- C20, refuted: adding a filter that ends inside an edge. The new filter is not reported, a stored
    one is no longer reported, and a stored one is reported for a tag that it does not match. -/
theorem C20_inside_edge :
    let sub : Subs := [("http://a".toList, ["urn:epc:pat:s:00110".toList]),
      ("http://b".toList, ["urn:epc:pat:s:00111".toList])]
    let t := newPatricia toyEncoder sub
    let t' := t.addSubscription toyEncoder [("http://c".toList, ["urn:epc:pat:s:00".toList])]
    t.search [0x30#8] = some ["http://a".toList] ∧ t.search [0x00#8] = some [] ∧
    t'.search [0x30#8] = some [] ∧ t'.search [0x00#8] = some ["http://a".toList] := by decide +kernel

/-- C21, refuted: the last stored filter cannot always be deleted. -/
theorem C21_last_filter_stays :
    let sub : Subs := [("http://a".toList, ["urn:epc:pat:s:0".toList])]
    let t := (newPatricia toyEncoder sub).addSubscription toyEncoder sub
    t.search [0x30#8] = some ["http://a".toList] ∧
    (t.deleteSubscription toyEncoder sub).search [0x30#8] = some ["http://a".toList] := by
  decide +kernel

/-- C21, refuted: a deletion removes the filter of another URI. -/
theorem C21_ignores_uri :
    let sub : Subs := [("http://a".toList, ["urn:epc:pat:s:0".toList]),
      ("http://b".toList, ["urn:epc:pat:s:1".toList])]
    let t := newPatricia toyEncoder sub
    t.search [0x30#8] = some ["http://a".toList] ∧
    (t.deleteSubscription toyEncoder [("http://c".toList, ["urn:epc:pat:s:0".toList])]).search [0x30#8]
      = some [] := by
  decide +kernel

end Gosstrak
