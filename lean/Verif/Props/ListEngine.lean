import Verif.Proofs.ListEngine
import Verif.Props.Subs

/-! # C13, C16, C17: the List engine -/
namespace Gosstrak

/-- `ReportsInKeyOrder` determines the list of URIs. -/
theorem reports_unique {bsub : FlatSubs} (hm : IsMap bsub) {id : List Byte} {r r' : List Str}
    (h : ReportsInKeyOrder bsub id r) (h' : ReportsInKeyOrder bsub id r') : r = r' := by
  obtain ⟨l, a1, a2, rfl⟩ := h
  obtain ⟨l', b1, b2, rfl⟩ := h'
  have hk : l.map Prod.fst = l'.map Prod.fst := by
    apply ascending_ext a1 b1
    intro s
    simp only [List.mem_map]
    constructor
    · rintro ⟨⟨k, u⟩, h, rfl⟩; exact ⟨(k, u), (b2 k u).mpr ((a2 k u).mp h), rfl⟩
    · rintro ⟨⟨k, u⟩, h, rfl⟩; exact ⟨(k, u), (a2 k u).mpr ((b2 k u).mp h), rfl⟩
  have hv : ∀ (l : FlatSubs), (∀ k u, (k, u) ∈ l → (k, u) ∈ bsub) →
      l.map Prod.snd = (l.map Prod.fst).map fun k => (mapGet bsub k).getD [] := by
    intro l hl
    rw [List.map_map]
    apply List.map_congr_left
    rintro ⟨k, u⟩ hku
    simp [mapGet_of_mem hm (hl k u hku)]
  rw [hv l fun k u h => ((a2 k u).mp h).1, hv l' fun k u h => ((b2 k u).mp h).1, hk]

/-! ## C16 -/

/-- C16: on an ID long enough for the filters, a fresh List reports exactly the subscriptions whose
    filter starts the ID, in key order. With reports the identity and error are the translation's;
    without any there is an error and no identity. It does not panic (apart from the translation). -/
theorem C16_search (mk : Encoder) (tr : Translator) (sub : Subs) (pc id : List Byte)
    (hc : Covered (toByteSubscriptions mk sub) id) :
    ∃ uris, ReportsInKeyOrder (toByteSubscriptions mk sub) id uris ∧
      (uris = [] → (newList mk sub).search tr pc id = some ⟨[], [], true⟩) ∧
      (uris ≠ [] → (newList mk sub).search tr pc id = (tr pc id).map fun p => ⟨p.1, uris, p.2⟩) := by
  have hm := isMap_toByteSubscriptions mk sub
  generalize hb : toByteSubscriptions mk sub = bsub at *
  have hsel := listMatches_map (sortedPairs bsub) id fun e he =>
    hc e.1 e.2 ((mem_sortedPairs bsub hm e).mp he)
  refine ⟨_, ⟨(sortedPairs bsub).filter fun e => decide (e.1 <+: bitsOf id), ?_, ?_, rfl⟩, ?_, ?_⟩
  · have h := mapKeys_lt hm
    rw [← keys_sortedPairs] at h
    exact h.sublist (List.filter_sublist.map _)
  · intro k u
    rw [List.mem_filter, mem_sortedPairs bsub hm, decide_eq_true_iff]
  · intro h
    rw [newList, hb, exactMatches_eq, ListEngine.search, hsel]
    simp only [h, finishSearch, List.length_nil, if_true]
  · intro h
    rw [newList, hb, exactMatches_eq, ListEngine.search, hsel]
    have : ¬ (List.map Prod.snd (List.filter (fun e => decide (e.1 <+: bitsOf id))
        (sortedPairs bsub))).length = 0 := by
      intro h0; exact h (List.length_eq_zero_iff.mp h0)
    simp only [finishSearch, this, if_false]
    cases tr pc id with
    | none => rfl
    | some p => rfl

/-- C16: the result does not depend on the iteration order of the subscription map, as long as no
    filter is shared by two URIs. -/
theorem C16_order_independent (mk : Encoder) (sub order : Subs) (hp : order.Perm sub)
    (hu : ∀ k u v, Subscribes mk sub u k → Subscribes mk sub v k → u = v) :
    newList mk order = newList mk sub := by
  obtain ⟨h1, h2⟩ := C11_order_independent mk sub order hp hu
  unfold newList exactMatches
  rw [h2]
  congr 1
  funext fs
  rw [h1]

-- test: two nested filters match, a third does not
def toySub3 : Subs :=
  [("http://b".toList, ["urn:epc:pat:s:001.1".toList, "urn:epc:pat:s:1".toList]),
   ("http://a".toList, ["urn:epc:pat:s:0".toList])]

example : (newList toyEncoder toySub3).search (fun _ _ => some ("x".toList, false)) [] [0x30#8]
    = some ⟨"x".toList, ["http://a".toList, "http://b".toList], false⟩ := by decide +kernel
example : Covered (toByteSubscriptions toyEncoder toySub3) [0x30#8] := by
  have h : ∀ e ∈ toByteSubscriptions toyEncoder toySub3, IsBitStr e.1 ∧ Covers e.1 0 [0x30#8] := by
    decide +kernel
  exact fun k u hk => h (k, u) hk

/-! ## C17 -/

/-- The set of (filter, URI) pairs after a history of calls, starting from `init`. -/
def SetAfter (mk : Encoder) (init : Str × Str → Prop) : List SubsOp → (Str × Str → Prop)
  | [] => init
  | .add s :: ops => SetAfter mk (fun e => init e ∨ e ∈ toByteSubscriptions mk s) ops
  | .delete s :: ops => SetAfter mk (fun e => init e ∧ e ∉ toByteSubscriptions mk s) ops

theorem list_apply_ops (mk : Encoder) : ∀ (ops : List SubsOp) (l : FlatSubs) (S : Str × Str → Prop),
    l.Nodup → (∀ e, e ∈ l ↔ S e) →
    ∃ l' : FlatSubs, ops.foldl (ListEngine.apply mk) (l.map toMatch) = l'.map toMatch ∧ l'.Nodup ∧
      ∀ e, e ∈ l' ↔ SetAfter mk S ops e
  | [], l, _, h1, h2 => ⟨l, rfl, h1, h2⟩
  | .add s :: ops, l, S, h1, h2 => by
    rw [List.foldl_cons, ListEngine.apply, ListEngine.addSubscription, exactMatches_eq]
    obtain ⟨l', a1, a2, a3⟩ := foldl_addOne (sortedPairs (toByteSubscriptions mk s)) l h1
    rw [a1]
    apply list_apply_ops mk ops l' _ a2
    intro e
    rw [a3, h2, mem_sortedPairs _ (isMap_toByteSubscriptions mk s)]
  | .delete s :: ops, l, S, h1, h2 => by
    rw [List.foldl_cons, ListEngine.apply, ListEngine.deleteSubscription, exactMatches_eq]
    obtain ⟨l', a1, a2, a3⟩ := foldl_deleteOne (sortedPairs (toByteSubscriptions mk s)) l h1
    rw [a1]
    apply list_apply_ops mk ops l' _ a2
    intro e
    rw [a3, h2, mem_sortedPairs _ (isMap_toByteSubscriptions mk s)]

/-- C17: after any history of additions and deletions a List engine behaves as the set of pairs the
    history describes: an ID long enough for them gets exactly one report per pair whose filter
    starts the ID. -/
theorem C17_history (mk : Encoder) (sub : Subs) (ops : List SubsOp) :
    ∃ pairs : FlatSubs, pairs.Nodup ∧
      (∀ e, e ∈ pairs ↔ SetAfter mk (· ∈ toByteSubscriptions mk sub) ops e) ∧
      ∀ (tr : Translator) (pc id : List Byte), Covered pairs id →
        (ops.foldl (ListEngine.apply mk) (newList mk sub)).search tr pc id =
          finishSearch tr pc id
            ((pairs.filter fun e => decide (e.1 <+: bitsOf id)).map Prod.snd) := by
  have hm := isMap_toByteSubscriptions mk sub
  obtain ⟨l', h1, h2, h3⟩ := list_apply_ops mk ops (sortedPairs (toByteSubscriptions mk sub))
    (· ∈ toByteSubscriptions mk sub) (nodup_sortedPairs _ hm) fun e => mem_sortedPairs _ hm e
  refine ⟨l', h2, h3, fun tr pc id hc => ?_⟩
  rw [newList, exactMatches_eq, h1, ListEngine.search, listMatches_map l' id fun e he => hc e.1 e.2 he]

/-- C17: adding the same subscriptions again changes nothing. -/
theorem C17_add_idempotent (mk : Encoder) (l : ListEngine) (sub : Subs) :
    (l.addSubscription mk sub).addSubscription mk sub = l.addSubscription mk sub := by
  unfold ListEngine.addSubscription
  generalize exactMatches (toByteSubscriptions mk sub) = b
  have keep : ∀ (b : ListEngine) (l : ListEngine), (∀ e ∈ b, e ∈ l) → b.foldl ListEngine.addOne l = l := by
    intro b
    induction b with
    | nil => intro l _; rfl
    | cons e b ih =>
      intro l h
      rw [List.foldl_cons, addOne_eq, if_pos (h e (by simp))]
      exact ih l fun d hd => h d (by simp [hd])
  have grow : ∀ (b l : ListEngine) (e), e ∈ l ∨ e ∈ b → e ∈ b.foldl ListEngine.addOne l := by
    intro b
    induction b with
    | nil => intro l e h; simpa using h
    | cons d b ih =>
      intro l e h
      rw [List.foldl_cons]
      apply ih
      rw [addOne_eq]
      split
      · rename_i hd
        rcases h with h | h
        · exact Or.inl h
        · rcases List.mem_cons.mp h with rfl | h
          · exact Or.inl hd
          · exact Or.inr h
      · rcases h with h | h
        · exact Or.inl (by simp [h])
        · rcases List.mem_cons.mp h with rfl | h
          · exact Or.inl (by simp)
          · exact Or.inr h
  exact keep b _ fun e he => grow b l e (Or.inr he)

/-- C17: deleting subscriptions none of which is present changes nothing. -/
theorem C17_delete_absent (mk : Encoder) (l : ListEngine) (sub : Subs)
    (h : ∀ k u, (k, u) ∈ toByteSubscriptions mk sub → ∀ f ∈ l, ¬ (f.1.str = k ∧ f.2 = u)) :
    l.deleteSubscription mk sub = l := by
  unfold ListEngine.deleteSubscription
  rw [exactMatches_eq]
  have hm := isMap_toByteSubscriptions mk sub
  have key : ∀ b : FlatSubs, (∀ e ∈ b, toMatch e ∉ l) →
      (b.map toMatch).foldl ListEngine.deleteOne l = l := by
    intro b
    induction b with
    | nil => intro _; rfl
    | cons e b ih =>
      intro hb
      rw [List.map_cons, List.foldl_cons, deleteOne_eq, List.erase_of_not_mem (hb e (by simp))]
      exact ih fun d hd => hb d (by simp [hd])
  apply key
  intro e he hl
  rw [mem_sortedPairs _ hm] at he
  exact h e.1 e.2 he _ hl ⟨rfl, rfl⟩

-- test: add two, delete one of them and one of the initial filters
example : (([SubsOp.add [("http://c".toList, ["urn:epc:pat:s:00".toList, "urn:epc:pat:s:11".toList])],
      SubsOp.delete [("http://a".toList, ["urn:epc:pat:s:0".toList]),
        ("http://c".toList, ["urn:epc:pat:s:11".toList])]].foldl
      (ListEngine.apply toyEncoder) (newList toyEncoder toySub3)).search
        (fun _ _ => some ("x".toList, false)) [] [0x30#8])
    = some ⟨"x".toList, ["http://b".toList, "http://c".toList], false⟩ := by decide +kernel

/-! ## C13 -/

/-- C13, the code: a pattern whose encoding fails becomes a filter that matches every tag. If its URI
    is the only one with such a pattern, the List engine reports the URI for every non-empty ID
    that is long enough for the other filters. -/
theorem C13_malformed_matches_everything (mk : Encoder) (tr : Translator) (sub : Subs)
    (uri pat t : Str) (pats : List Str) (fields : List Str)
    (hsub : (uri, pats) ∈ sub) (hpat : pat ∈ pats) (hshape : PatternOf pat t fields)
    (hbad : mk t fields = none)
    (honly : ∀ v, Subscribes mk sub v [] → v = uri)
    (pc id : List Byte) (hc : Covered (toByteSubscriptions mk sub) id) :
    ∃ uris, uri ∈ uris ∧
      (newList mk sub).search tr pc id = (tr pc id).map fun p => ⟨p.1, uris, p.2⟩ := by
  obtain ⟨uris, ⟨hits, -, h2, rfl⟩, -, h4⟩ := C16_search mk tr sub pc id hc
  have hs : Subscribes mk sub uri [] := ⟨pats, hsub, pat, hpat, t, fields, hshape, Or.inr ⟨hbad, rfl⟩⟩
  have hin : ([], uri) ∈ toByteSubscriptions mk sub := by
    have hm := isMap_toByteSubscriptions mk sub
    rw [← mapGet_iff hm, mapGet_toByteSubscriptions]
    have hmem : (([] : Str), uri) ∈ (storeOrder mk sub).reverse := by
      rw [List.mem_reverse, mem_storeOrder]; exact hs
    obtain ⟨v, hv⟩ := (mapGet_isSome _ _).mpr (List.mem_map.mpr ⟨_, hmem, rfl⟩)
    rw [hv]
    have h3 := mapGet_mem hv
    rw [List.mem_reverse, mem_storeOrder] at h3
    rw [honly v h3]
  have hu : uri ∈ hits.map Prod.snd :=
    List.mem_map.mpr ⟨([], uri), (h2 [] uri).mpr ⟨hin, List.nil_prefix⟩, rfl⟩
  exact ⟨_, hu, h4 (List.ne_nil_of_mem hu)⟩

-- test: the pattern with an empty first field cannot be encoded by the toy encoder
example : (newList toyEncoder [("http://a".toList, ["urn:epc:pat:s:".toList]),
      ("http://b".toList, ["urn:epc:pat:s:1".toList])]).search
        (fun _ _ => some ("x".toList, false)) [] [0x30#8]
    = some ⟨"x".toList, ["http://a".toList], false⟩ := by decide +kernel
example : PatternOf "urn:epc:pat:s:".toList "s".toList [[]] :=
  ⟨"s:".toList, [], Or.inl (by decide +kernel),
    ⟨by simp, by decide +kernel, by decide +kernel⟩, ⟨by simp, by decide +kernel, by decide +kernel⟩⟩

end Gosstrak
