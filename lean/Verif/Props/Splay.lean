import Verif.Proofs.SplayExact
import Verif.Props.Patricia

/-! # C22–C27: the splay tree -/
namespace Gosstrak

open SNode

/-! ## C22 -/

/-- C22: the first search on a fresh splay tree reports exactly the subscriptions whose filter starts
    the ID, in key order. -/
theorem C22_first_search (mk : Encoder) (tr : Translator) (sub : Subs)
    (hne : toByteSubscriptions mk sub ≠ []) (pc id : List Byte)
    (hc : Covered (toByteSubscriptions mk sub) id) :
    ∃ t uris t', newSplay mk sub = some t ∧ ReportsInKeyOrder (toByteSubscriptions mk sub) id uris ∧
      t.searchEngine tr pc id = (finishSearch tr pc id uris).map fun r => (r, t') := by
  have hid : id ≠ [] := by
    rintro rfl
    obtain ⟨e, he⟩ := List.exists_mem_of_ne_nil _ hne
    have := (hc e.1 e.2 he).2.2
    simp at this
  obtain ⟨t, h1, h2⟩ := sstores_fresh _ (isMap_toByteSubscriptions mk sub) hne
    fun k u h => (hc k u h).1
  obtain ⟨uris, t', h3, h4, -⟩ := sstores_search h2 id hid fun k u h => by
    have := (hc k u h).2.1
    simpa using this
  exact ⟨t, uris, t', h1, h4, by unfold SNode.searchEngine; rw [h3]⟩

/-- C22: so it gives the same result as the List engine. -/
theorem C22_equals_list (mk : Encoder) (tr : Translator) (sub : Subs)
    (hne : toByteSubscriptions mk sub ≠ []) (pc id : List Byte)
    (hc : Covered (toByteSubscriptions mk sub) id) :
    ∃ t, newSplay mk sub = some t ∧
      (t.searchEngine tr pc id).map Prod.fst = (newList mk sub).search tr pc id := by
  obtain ⟨t, uris, t', h1, h2, h3⟩ := C22_first_search mk tr sub hne pc id hc
  obtain ⟨uris', h4, h5, h6⟩ := C16_search mk tr sub pc id hc
  have := reports_unique (isMap_toByteSubscriptions mk sub) h2 h4
  subst this
  refine ⟨t, h1, ?_⟩
  rw [h3]
  by_cases h0 : uris = []
  · rw [h5 h0]; simp [finishSearch, h0]
  · rw [h6 h0]
    have : ¬ uris.length = 0 := by rw [List.length_eq_zero_iff]; exact h0
    simp only [finishSearch, this, if_false]
    cases tr pc id <;> rfl

/-- C13, the code, for the SplayTree engine: with the hypotheses of the List theorem the first search
    of the tree reports the URI of the malformed pattern. -/
theorem C13_splay (mk : Encoder) (tr : Translator) (sub : Subs)
    (uri pat t : Str) (pats : List Str) (fields : List Str)
    (hsub : (uri, pats) ∈ sub) (hpat : pat ∈ pats) (hshape : PatternOf pat t fields)
    (hbad : mk t fields = none)
    (honly : ∀ v, Subscribes mk sub v [] → v = uri)
    (pc id : List Byte) (hc : Covered (toByteSubscriptions mk sub) id) :
    ∃ tree uris, newSplay mk sub = some tree ∧ uri ∈ uris ∧
      (tree.searchEngine tr pc id).map Prod.fst = (tr pc id).map fun p => ⟨p.1, uris, p.2⟩ := by
  have hs : Subscribes mk sub uri [] := ⟨pats, hsub, pat, hpat, t, fields, hshape, Or.inr ⟨hbad, rfl⟩⟩
  have hne : toByteSubscriptions mk sub ≠ [] := by
    intro h0
    have hmem : (([] : Str), uri) ∈ (storeOrder mk sub).reverse := by
      rw [List.mem_reverse, mem_storeOrder]; exact hs
    obtain ⟨v, hv⟩ := (mapGet_isSome _ _).mpr (List.mem_map.mpr ⟨_, hmem, rfl⟩)
    rw [← mapGet_toByteSubscriptions, h0] at hv
    simp [mapGet] at hv
  obtain ⟨uris, h1, h2⟩ :=
    C13_malformed_matches_everything mk tr sub uri pat t pats fields hsub hpat hshape hbad honly pc id hc
  obtain ⟨tree, h3, h4⟩ := C22_equals_list mk tr sub hne pc id hc
  exact ⟨tree, uris, h3, h1, by rw [h4, h2]⟩

-- test: the pattern with an empty first field cannot be encoded by the toy encoder
example : ((newSplay toyEncoder [("http://a".toList, ["urn:epc:pat:s:".toList]),
    ("http://b".toList, ["urn:epc:pat:s:001".toList])]).bind fun t =>
      (t.search [0xff#8]).map Prod.fst) = some ["http://a".toList] := by decide +kernel

-- test: two nested filters match
example : ((newSplay toyEncoder toySub3).bind fun t =>
    (t.searchEngine (fun _ _ => some ("x".toList, false)) [] [0x30#8]).map Prod.fst)
    = some ⟨"x".toList, ["http://a".toList, "http://b".toList], false⟩ := by decide +kernel

/-! ## C23, C25, C26 -/

theorem sstores_steps (mk : Encoder) : ∀ (calls : List SplayCall) (t : SNode) (S : Str → Str → Prop),
    SStores t S → GoodSteps S (calls.flatMap (stepsOf mk)) →
    ∃ t', calls.foldlM (SNode.applyCall mk) t = some t' ∧
      SStores t' ((calls.flatMap (stepsOf mk)).foldl PairsAfter S)
  | [], t, S, h, _ => ⟨t, rfl, h⟩
  | c :: calls, t, S, h, hg => by
    have good_append : ∀ (a b : List SplayStep) (S : Str → Str → Prop), GoodSteps S (a ++ b) →
        GoodSteps S a ∧ GoodSteps (a.foldl PairsAfter S) b := by
      intro a
      induction a with
      | nil => intro b S h; exact ⟨trivial, h⟩
      | cons x a ih =>
        intro b S h
        obtain ⟨h1, h2⟩ := ih b _ h.2
        exact ⟨⟨h.1, h1⟩, h2⟩
    have loop_add : ∀ (val : Str → Str) (ks : List Str) (t : SNode) (S : Str → Str → Prop), SStores t S →
        GoodSteps S (ks.map fun k => .add k (val k)) →
        ∃ t', ks.foldlM (fun t fs => t.add fs (val fs)) t = some t' ∧
          SStores t' ((ks.map fun k => SplayStep.add k (val k)).foldl PairsAfter S) := by
      intro val ks
      induction ks with
      | nil => intro t S h _; exact ⟨t, rfl, h⟩
      | cons k ks ih =>
        intro t S h hg
        obtain ⟨t1, a1, a2⟩ := sstores_add h k (val k) hg.1
        obtain ⟨t2, b1, b2⟩ := ih t1 _ a2 hg.2
        refine ⟨t2, ?_, b2⟩
        rw [List.foldlM_cons, a1]
        exact b1
    have loop_del : ∀ (ks : List Str) (t : SNode) (S : Str → Str → Prop), SStores t S →
        GoodSteps S (ks.map .delete) →
        ∃ t', ks.foldlM SNode.delete t = some t' ∧
          SStores t' ((ks.map SplayStep.delete).foldl PairsAfter S) := by
      intro ks
      induction ks with
      | nil => intro t S h _; exact ⟨t, rfl, h⟩
      | cons k ks ih =>
        intro t S h hg
        obtain ⟨t1, a1, a2⟩ := sstores_delete h k hg.1
        obtain ⟨t2, b1, b2⟩ := ih t1 _ a2 hg.2
        refine ⟨t2, ?_, b2⟩
        rw [List.foldlM_cons, a1]
        exact b1
    rw [List.flatMap_cons] at hg
    obtain ⟨g1, g2⟩ := good_append _ _ _ hg
    have hone : ∃ t1, t.applyCall mk c = some t1 ∧ SStores t1 ((stepsOf mk c).foldl PairsAfter S) := by
      cases c with
      | add s => exact loop_add _ _ t S h g1
      | delete s => exact loop_del _ t S h g1
      | search id =>
        obtain ⟨⟨hid, hfit, hnf⟩, -⟩ := g1
        obtain ⟨uris, t', h3, -, h5⟩ := sstores_search h id hid hfit
        exact ⟨t', by simp [SNode.applyCall, h3], h5 hnf⟩
    obtain ⟨t1, a1, a2⟩ := hone
    obtain ⟨t2, b1, b2⟩ := sstores_steps mk calls t1 _ a2 g2
    refine ⟨t2, ?_, ?_⟩
    · rw [List.foldlM_cons, a1]; exact b1
    · rw [List.flatMap_cons, List.foldl_append]; exact b2

/-- C23, C25, C26: over any history of good calls (`GoodStep`) the splay tree does not panic and
    behaves as the set of pairs that `PairsAfter` describes: a search reports the URIs of the
    stored filters that start the ID, in key order. -/
theorem C23_C25_C26_history (mk : Encoder) (sub : Subs) (calls : List SplayCall)
    (hne : toByteSubscriptions mk sub ≠ [])
    (hbit : ∀ k u, (k, u) ∈ toByteSubscriptions mk sub → IsBitStr k)
    (hg : GoodSteps (fun k u => (k, u) ∈ toByteSubscriptions mk sub) (calls.flatMap (stepsOf mk)))
    (id : List Byte) (hid : id ≠ [])
    (hfit : ∀ k u, (calls.flatMap (stepsOf mk)).foldl PairsAfter
      (fun k u => (k, u) ∈ toByteSubscriptions mk sub) k u → k.length ≤ 8 * id.length) :
    ∃ t0 t uris t', newSplay mk sub = some t0 ∧ calls.foldlM (SNode.applyCall mk) t0 = some t ∧
      t.search id = some (uris, t') ∧
      ReportsFrom ((calls.flatMap (stepsOf mk)).foldl PairsAfter
        (fun k u => (k, u) ∈ toByteSubscriptions mk sub)) id uris := by
  obtain ⟨t0, h1, h2⟩ := sstores_fresh _ (isMap_toByteSubscriptions mk sub) hne hbit
  obtain ⟨t, h3, h4⟩ := sstores_steps mk calls t0 _ h2 hg
  obtain ⟨uris, t', h5, h6, -⟩ := sstores_search h4 id hid hfit
  exact ⟨t0, t, uris, t', h1, h3, h5, h6⟩

/-- C23: if no filter has two children, then after any sequence of searches a search on the tree
    reports the same as on the fresh tree, namely the subscriptions whose filter starts the ID. -/
theorem C23_searches (mk : Encoder) (sub : Subs) (ids : List (List Byte))
    (hne : toByteSubscriptions mk sub ≠ [])
    (hnf : NoForks fun k u => (k, u) ∈ toByteSubscriptions mk sub)
    (hids : ∀ i ∈ ids, Covered (toByteSubscriptions mk sub) i)
    (id : List Byte) (hc : Covered (toByteSubscriptions mk sub) id) :
    ∃ t0 t uris t', newSplay mk sub = some t0 ∧
      ids.foldlM (fun t i => (t.search i).map Prod.snd) t0 = some t ∧
      t.search id = some (uris, t') ∧ ReportsInKeyOrder (toByteSubscriptions mk sub) id uris := by
  have cov : ∀ i, Covered (toByteSubscriptions mk sub) i → i ≠ [] ∧
      ∀ k u, (k, u) ∈ toByteSubscriptions mk sub → k.length ≤ 8 * i.length := by
    intro i hi
    refine ⟨?_, fun k u h => by have := (hi k u h).2.1; simpa using this⟩
    rintro rfl
    obtain ⟨e, he⟩ := List.exists_mem_of_ne_nil _ hne
    have := (hi e.1 e.2 he).2.2
    simp at this
  have hsame : ∀ ids : List (List Byte), (∀ i ∈ ids, Covered (toByteSubscriptions mk sub) i) →
      GoodSteps (fun k u => (k, u) ∈ toByteSubscriptions mk sub)
        ((ids.map SplayCall.search).flatMap (stepsOf mk)) ∧
      ((ids.map SplayCall.search).flatMap (stepsOf mk)).foldl PairsAfter
        (fun k u => (k, u) ∈ toByteSubscriptions mk sub) =
        fun k u => (k, u) ∈ toByteSubscriptions mk sub := by
    intro ids
    induction ids with
    | nil => intro _; exact ⟨trivial, rfl⟩
    | cons i ids ih =>
      intro h
      obtain ⟨h1, h2⟩ := ih fun j hj => h j (by simp [hj])
      obtain ⟨c1, c2⟩ := cov i (h i (by simp))
      exact ⟨⟨⟨c1, c2, hnf⟩, h1⟩, h2⟩
  obtain ⟨s1, s2⟩ := hsame ids hids
  obtain ⟨c1, c2⟩ := cov id hc
  obtain ⟨t0, t, uris, t', h1, h2, h3, h4⟩ := C23_C25_C26_history mk sub (ids.map .search) hne
    (fun k u h => (hc k u h).1) s1 id c1 (by rw [s2]; exact c2)
  refine ⟨t0, t, uris, t', h1, ?_, h3, ?_⟩
  · rw [List.foldlM_map] at h2; exact h2
  · rw [s2] at h4; exact h4

-- test: two searches that both restructure a tree with nested filters
example : NoForks fun k u => (k, u) ∈ toByteSubscriptions toyEncoder toySub3 := by
  have h : ∀ e ∈ toByteSubscriptions toyEncoder toySub3, ∀ a ∈ toByteSubscriptions toyEncoder toySub3,
      ∀ b ∈ toByteSubscriptions toyEncoder toySub3, e.1 <+: a.1 → e.1 ≠ a.1 → e.1 <+: b.1 → e.1 ≠ b.1 →
      a.1 <+: b.1 ∨ b.1 <+: a.1 := by decide +kernel
  intro k a b u v w h1 h2 h3 h4 h5
  exact h (k, u) h1 (a, v) h2 (b, w) h3 h4.1 h4.2 h5.1 h5.2

theorem reached_stores {mk : Encoder} {t : SNode} {S : Str → Str → Prop} (h : SplayReached mk t S) :
    SStores t S := by
  obtain ⟨sub, calls, t0, hne, hbit, hg, h0, h1, rfl⟩ := h
  obtain ⟨t0', a1, a2⟩ := sstores_fresh _ (isMap_toByteSubscriptions mk sub) hne hbit
  have ht : newSplay mk sub = some t0' := a1
  rw [h0] at ht
  cases ht
  obtain ⟨t', b1, b2⟩ := sstores_steps mk calls t0 _ a2 hg
  rw [h1] at b1
  cases b1
  exact b2

/-- C23: the trees that the following theorems speak of exist for every history of good calls. -/
theorem C23_C25_C26_reached (mk : Encoder) (sub : Subs) (calls : List SplayCall)
    (hne : toByteSubscriptions mk sub ≠ [])
    (hbit : ∀ k u, (k, u) ∈ toByteSubscriptions mk sub → IsBitStr k)
    (hg : GoodSteps (fun k u => (k, u) ∈ toByteSubscriptions mk sub) (calls.flatMap (stepsOf mk))) :
    ∃ t, SplayReached mk t ((calls.flatMap (stepsOf mk)).foldl PairsAfter
      fun k u => (k, u) ∈ toByteSubscriptions mk sub) := by
  obtain ⟨t0, a1, a2⟩ := sstores_fresh _ (isMap_toByteSubscriptions mk sub) hne hbit
  obtain ⟨t, b1, b2⟩ := sstores_steps mk calls t0 _ a2 hg
  exact ⟨t, sub, calls, t0, hne, hbit, hg, a1, b1, rfl⟩

/-- C23: if a stored filter has two children then some search changes the result of the next search
    for the same tag: the first reports what is due, the second less. -/
theorem C23_second_search_loses (mk : Encoder) (t : SNode) (S : Str → Str → Prop)
    (h : SplayReached mk t S) (hf : ¬ NoForks S) :
    ∃ id, LongEnough S id ∧ ∃ us t' vs t'', t.search id = some (us, t') ∧ t'.search id = some (vs, t'') ∧
      ReportsFrom S id us ∧ vs.length < us.length := by
  obtain ⟨id, h1, -, h2⟩ := sstores_twice (reached_stores h) hf 0
  exact ⟨id, h1, h2⟩

/-- C23: searches do not interfere exactly when no stored filter has two children. -/
theorem C23_iff (mk : Encoder) (t : SNode) (S : Str → Str → Prop) (h : SplayReached mk t S) :
    (∀ (ids : List (List Byte)) (id : List Byte), (∀ i ∈ ids, LongEnough S i) → LongEnough S id →
      ∃ t' uris t'', ids.foldlM (fun t i => (t.search i).map Prod.snd) t = some t' ∧
        t'.search id = some (uris, t'') ∧ ReportsFrom S id uris) ↔ NoForks S := by
  constructor
  · intro hall
    refine Classical.byContradiction fun hf => ?_
    obtain ⟨id, h1, us, t', vs, t'', h2, h3, h4, h5⟩ := C23_second_search_loses mk t S h hf
    obtain ⟨r, uris, r', g1, g2, g3⟩ := hall [id] id (by simpa using h1) h1
    simp [h2] at g1
    subst g1
    rw [h3] at g2
    cases g2
    rw [reportsFrom_unique h4 g3] at h5
    exact Nat.lt_irrefl _ h5
  · intro hnf ids id hids hid
    have key : ∀ (ids : List (List Byte)) (t : SNode), SStores t S → (∀ i ∈ ids, LongEnough S i) →
        ∃ t', ids.foldlM (fun t i => (t.search i).map Prod.snd) t = some t' ∧ SStores t' S := by
      intro ids
      induction ids with
      | nil => intro t ht _; exact ⟨t, rfl, ht⟩
      | cons i ids ih =>
        intro t ht hi
        obtain ⟨us, t1, a1, -, a3⟩ := sstores_search ht i (hi i (by simp)).1 (hi i (by simp)).2
        obtain ⟨t', b1, b2⟩ := ih t1 (a3 hnf) fun j hj => hi j (by simp [hj])
        exact ⟨t', by rw [List.foldlM_cons, a1]; exact b1, b2⟩
    obtain ⟨t', a1, a2⟩ := key ids t (reached_stores h) hids
    obtain ⟨us, t'', b1, b2, -⟩ := sstores_search a2 id hid.1 hid.2
    exact ⟨t', us, t'', a1, b1, b2⟩

-- test: a tree with a filter that has two children, reached after an addition and a deletion
example : ∃ t S, SplayReached toyEncoder t S ∧ ¬ NoForks S := by
  let sub : Subs := [("http://a".toList, ["urn:epc:pat:s:0".toList]),
    ("http://b".toList, ["urn:epc:pat:s:001".toList])]
  let calls : List SplayCall := [.add [("http://c".toList, ["urn:epc:pat:s:010".toList])],
    .add [("http://d".toList, ["urn:epc:pat:s:1".toList])],
    .delete [("http://d".toList, ["urn:epc:pat:s:1".toList])]]
  have hs : toByteSubscriptions toyEncoder sub =
      [("0".toList, "http://a".toList), ("001".toList, "http://b".toList)] := by decide +kernel
  have hc : calls.flatMap (stepsOf toyEncoder) = [.add "010".toList "http://c".toList,
      .add "1".toList "http://d".toList, .delete "1".toList] := by
    have h1 : toByteSubscriptions toyEncoder [("http://c".toList, ["urn:epc:pat:s:010".toList])] =
      [("010".toList, "http://c".toList)] := by decide +kernel
    have h2 : toByteSubscriptions toyEncoder [("http://d".toList, ["urn:epc:pat:s:1".toList])] =
      [("1".toList, "http://d".toList)] := by decide +kernel
    simp only [calls, List.flatMap_cons, List.flatMap_nil, stepsOf, h1, h2]
    rfl
  have hS0 : (fun k u => (k, u) ∈ toByteSubscriptions toyEncoder sub) =
      fun k u => (k, u) ∈ [("0".toList, "http://a".toList), ("001".toList, "http://b".toList)] := by
    rw [hs]
  obtain ⟨t, ht⟩ := C23_C25_C26_reached toyEncoder sub calls (by rw [hs]; simp) (by
      rw [hs]
      have : ∀ e ∈ [("0".toList, "http://a".toList), ("001".toList, "http://b".toList)], IsBitStr e.1 := by
        decide +kernel
      exact fun k u h => this (k, u) h) (by
    rw [hc, hS0]
    refine ⟨⟨by decide +kernel, Or.inr ?_⟩, ⟨by decide +kernel, Or.inr ?_⟩, Or.inl ?_, trivial⟩
    · intro k' u h
      have : ∀ e ∈ [("0".toList, "http://a".toList), ("001".toList, "http://b".toList)],
        ¬ "010".toList <+: e.1 := by decide +kernel
      exact this (k', u) h
    · intro k' u h
      have h1 : ∀ e ∈ [("0".toList, "http://a".toList), ("001".toList, "http://b".toList)],
        ¬ "1".toList <+: e.1 := by decide +kernel
      rcases h with ⟨rfl, -⟩ | ⟨-, h⟩
      · decide +kernel
      · exact h1 (k', u) h
    · refine ⟨"0".toList, "http://a".toList, by decide, Or.inr ⟨by decide, Or.inr ⟨by decide, by simp⟩⟩⟩)
  refine ⟨t, _, ht, ?_⟩
  rw [hc, hS0]
  intro hnf
  have := hnf "0".toList "001".toList "010".toList "http://a".toList "http://b".toList "http://c".toList
    (Or.inr ⟨by decide, Or.inr ⟨by decide, Or.inr ⟨by decide, by simp⟩⟩⟩)
    (Or.inr ⟨by decide, Or.inr ⟨by decide, Or.inr ⟨by decide, by simp⟩⟩⟩)
    (Or.inr ⟨by decide, Or.inr ⟨by decide, Or.inl ⟨rfl, rfl⟩⟩⟩)
    ⟨by decide +kernel, by decide⟩ ⟨by decide +kernel, by decide⟩
  revert this
  decide +kernel

/-- C23, refuted: a search changes the result of the next search for the same tag (a subscription is
    lost), and a later search reports a filter that does not match. -/
theorem C23_searches_interfere :
    let sub : Subs := [("http://a".toList, ["urn:epc:pat:s:0".toList]),
      ("http://b".toList, ["urn:epc:pat:s:001".toList]),
      ("http://c".toList, ["urn:epc:pat:s:010".toList])]
    let results (ids : List (List Byte)) (id : List Byte) : Option (List Str) :=
      (newSplay toyEncoder sub).bind fun t0 =>
        (ids.foldlM (fun (t : SNode) i => (t.search i).map Prod.snd) t0).bind fun t => (t.search id).map Prod.fst
    results [] [0x40#8] = some ["http://a".toList, "http://c".toList] ∧
    results [[0x40#8]] [0x40#8] = some ["http://c".toList] ∧
    results [] [0xD0#8] = some [] ∧
    results [[0x40#8]] [0xD0#8] = some ["http://c".toList] := by
  decide +kernel

/-! ## C24 -/

/-- C24: no sequence of searches on any tree loses, duplicates or alters a node. -/
theorem C24_keeps_nodes (t t' : SNode) (ids : List (List Byte))
    (h : ids.foldlM (fun t i => (t.search i).map Prod.snd) t = some t') :
    t'.nodes.Perm t.nodes := by
  induction ids generalizing t with
  | nil => simp at h; subst h; exact List.Perm.refl _
  | cons i ids ih =>
    rw [List.foldlM_cons] at h
    cases hs : t.search i with
    | none => rw [hs] at h; simp at h
    | some r =>
      obtain ⟨ms, t1⟩ := r
      rw [hs] at h
      exact (ih t1 h).trans (search_nodes hs)

/-- C24: a search on any non-empty tree panics only if one of its filters cannot be compared with the
    ID; searching does not introduce a panic. -/
theorem C24_no_panic (t : SNode) (ht : t ≠ .nil) (ids : List (List Byte))
    (hall : ∀ i ∈ ids, ∀ n ∈ t.nodes, ∃ f b, n.2 = some f ∧ f.matchID i = some b) :
    ∃ t', ids.foldlM (fun t i => (t.search i).map Prod.snd) t = some t' := by
  induction ids generalizing t with
  | nil => exact ⟨t, rfl⟩
  | cons i ids ih =>
    obtain ⟨⟨ms, r, l⟩, hr⟩ := splaySearch_no_panic i t true ht fun n hn => hall i (by simp) n hn
    have hs : t.search i = some (ms, l.foldl attach r) := by unfold SNode.search; rw [hr]
    have hp := search_nodes hs
    have hn : l.foldl attach r ≠ .nil := by
      intro h0
      rw [h0] at hp
      cases t with
      | nil => exact ht rfl
      | node u f m mm =>
        have := hp.length_eq
        simp [nodes] at this
    obtain ⟨t', h'⟩ := ih (l.foldl attach r) hn fun j hj n hn' =>
      hall j (by simp [hj]) n (hp.mem_iff.mp hn')
    refine ⟨t', ?_⟩
    rw [List.foldlM_cons, hs]
    exact h'

-- test: a search that lifts a nested node
example : ((newSplay toyEncoder [("http://a".toList, ["urn:epc:pat:s:0".toList]),
      ("http://b".toList, ["urn:epc:pat:s:001".toList]),
      ("http://c".toList, ["urn:epc:pat:s:010".toList])]).bind fun t =>
    (t.search [0x40#8]).map fun r => (decide (r.2 = t), r.2.nodes.length, t.nodes.length))
    = some (false, 3, 3) := by decide +kernel

/-! ## C25 -/

/-- C25: adding a filter that is not a prefix of a stored one keeps all subscriptions and makes the
    new one reported. -/
theorem C25_add (mk : Encoder) (sub : Subs) (hne : toByteSubscriptions mk sub ≠ [])
    (k uri : Str) (hk : IsBitStr k)
    (hnew : ∀ k' u, (k', u) ∈ toByteSubscriptions mk sub → ¬ k <+: k')
    (id : List Byte) (hc : Covered (toByteSubscriptions mk sub ++ [(k, uri)]) id) :
    ∃ t t' uris t'', newSplay mk sub = some t ∧ t.add k uri = some t' ∧
      ReportsInKeyOrder (toByteSubscriptions mk sub ++ [(k, uri)]) id uris ∧
      t'.search id = some (uris, t'') := by
  have hid : id ≠ [] := by
    rintro rfl
    have := (hc k uri (by simp)).2.2
    simp at this
  obtain ⟨t, h1, h2⟩ := sstores_fresh _ (isMap_toByteSubscriptions mk sub) hne
    fun k' u h => (hc k' u (by simp [h])).1
  obtain ⟨t', h3, h4⟩ := sstores_add h2 k uri ⟨hk, Or.inr hnew⟩
  have hS : ∀ k' u, PairsAfter (fun k u => (k, u) ∈ toByteSubscriptions mk sub) (.add k uri) k' u ↔
      (k', u) ∈ toByteSubscriptions mk sub ++ [(k, uri)] := by
    intro k' u
    simp only [PairsAfter, List.mem_append, List.mem_singleton, Prod.mk.injEq]
    constructor
    · rintro (h | ⟨-, h⟩)
      · exact Or.inr h
      · exact Or.inl h
    · rintro (h | h)
      · refine Or.inr ⟨?_, h⟩
        rintro rfl
        exact hnew _ u h List.prefix_rfl
      · exact Or.inl h
  obtain ⟨uris, t'', h5, ⟨hits, g1, g2, g3⟩, -⟩ := sstores_search h4 id hid fun k' u h => by
    have := (hc k' u ((hS k' u).mp h)).2.1
    simpa using this
  exact ⟨t, t', uris, t'', h1, h3, ⟨hits, g1, fun k' u => by rw [g2, hS], g3⟩, h5⟩

-- test: the new filter goes below a nested one
example : ((newSplay toyEncoder toySub3).bind fun t =>
    (t.add "0011000".toList "http://c".toList).bind fun t' => (t'.search [0x30#8]).map Prod.fst)
    = some ["http://a".toList, "http://b".toList, "http://c".toList] := by decide +kernel

/-- C25, refuted: a new filter that is a prefix of a stored one is missed. -/
theorem C25_prefix_missed :
    let sub : Subs := [("http://a".toList, ["urn:epc:pat:s:001".toList])]
    ((newSplay toyEncoder sub).bind fun t =>
      (t.addSubscription toyEncoder [("http://b".toList, ["urn:epc:pat:s:0".toList])]).bind fun t' =>
        (t'.search [0x30#8]).map Prod.fst) = some ["http://a".toList] := by
  decide +kernel

/-- C25: what the addition of a filter that is not stored does to every search: the reports are as
    before, followed by the new URI if the new filter starts the ID and no stored extension of it
    does. -/
theorem C25_exact (mk : Encoder) (t : SNode) (S : Str → Str → Prop) (h : SplayReached mk t S)
    (k uri : Str) (hk : IsBitStr k) (hnew : ∀ u, ¬ S k u)
    (id : List Byte) (hid : LongEnough S id) (hkl : k.length ≤ 8 * id.length) :
    ∃ t' us us' t'', t.add k uri = some t' ∧ ReportsFrom S id us ∧ t'.search id = some (us', t'') ∧
      ((k <+: bitsOf id ∧ ∀ e v, S e v → Extends k e → ¬ e <+: bitsOf id) → us' = us ++ [uri]) ∧
      (¬ (k <+: bitsOf id ∧ ∀ e v, S e v → Extends k e → ¬ e <+: bitsOf id) → us' = us) :=
  sstores_add_exact (reached_stores h) uri hk hnew hid hkl

/-- C25: an addition does what it should for every ID exactly when the filter is stored already or
    is not a prefix of a stored one. -/
theorem C25_iff (mk : Encoder) (t : SNode) (S : Str → Str → Prop) (h : SplayReached mk t S)
    (k uri : Str) (hk : IsBitStr k) :
    (∀ id, LongEnough (PairsAfter S (.add k uri)) id →
      ∃ t' uris t'', t.add k uri = some t' ∧ t'.search id = some (uris, t'') ∧
        ReportsFrom (PairsAfter S (.add k uri)) id uris) ↔
      (∃ u, S k u) ∨ ∀ k' u, S k' u → ¬ k <+: k' := by
  have hst := reached_stores h
  constructor
  · intro hall
    refine Classical.byContradiction fun hno => ?_
    have hnew : ∀ u, ¬ S k u := fun u hu => hno (Or.inl ⟨u, hu⟩)
    obtain ⟨k', u', hk', hp⟩ : ∃ k' u, S k' u ∧ k <+: k' := by
      refine Classical.byContradiction fun hn => hno (Or.inr fun k' u h1 h2 => hn ⟨k', u, h1, h2⟩)
    obtain ⟨id, i1, i2, i3⟩ := sstores_id hst (sstores_bits hst hk') k.length
    obtain ⟨t', us, us', t'', a1, a2, a3, -, a5⟩ := sstores_add_exact hst uri hk hnew i1 i3
    have hx : Extends k k' := ⟨hp, by rintro rfl; exact hnew _ hk'⟩
    have hus := a5 fun hc => hc.2 k' u' hk' hx i2
    obtain ⟨r, vs, r', b1, b2, b3⟩ := hall id ⟨i1.1, fun e v he => by
      rcases he with ⟨rfl, -⟩ | ⟨-, he⟩
      · exact i3
      · exact i1.2 e v he⟩
    rw [a1] at b1
    cases b1
    rw [a3] at b2
    cases b2
    rw [hus] at b3
    exact Nat.lt_irrefl _ (reportsFrom_lt a2 b3 (k := k) (w := uri) (fun e v => by
      simp only [PairsAfter]
      constructor
      · intro he
        have : e ≠ k := by rintro rfl; exact hnew _ he
        exact ⟨this, Or.inr ⟨this, he⟩⟩
      · rintro ⟨h1, ⟨h2, -⟩ | ⟨-, h2⟩⟩
        · exact absurd h2 h1
        · exact h2) (Or.inl ⟨rfl, rfl⟩) (hp.trans i2))
  · intro hg id hid
    obtain ⟨t', a1, a2⟩ := sstores_add hst k uri ⟨hk, hg⟩
    obtain ⟨us, t'', b1, b2, -⟩ := sstores_search a2 id hid.1 hid.2
    exact ⟨t', us, t'', a1, b1, b2⟩

-- test: "0" is added to a tree with "001": reported for 010…, missed for 0011…
example : ((newSplay toyEncoder [("http://a".toList, ["urn:epc:pat:s:001".toList])]).bind fun t =>
    (t.add "0".toList "http://b".toList).bind fun t' =>
      (t'.search [0x40#8]).bind fun r => (t'.search [0x30#8]).map fun r' => (r.1, r'.1))
    = some (["http://b".toList], ["http://a".toList]) := by decide +kernel

/-! ## C26 -/

/-- C26, the code: deleting a filter of a tree with another one keeps all others, and removes the
    filter unless it has two children; then it stays and is reported as the empty URI. -/
theorem C26_delete (mk : Encoder) (sub : Subs) (k u0 : Str)
    (hk : (k, u0) ∈ toByteSubscriptions mk sub)
    (hother : ∃ k' u, k' ≠ k ∧ (k', u) ∈ toByteSubscriptions mk sub)
    (id : List Byte) (hc : Covered (toByteSubscriptions mk sub) id) :
    ∃ t t' uris t'', newSplay mk sub = some t ∧ t.delete k = some t' ∧ t'.search id = some (uris, t'') ∧
      (Forks (fun k u => (k, u) ∈ toByteSubscriptions mk sub) k →
        ReportsInKeyOrder ((toByteSubscriptions mk sub).map fun e => if e.1 = k then (k, []) else e)
          id uris) ∧
      (¬ Forks (fun k u => (k, u) ∈ toByteSubscriptions mk sub) k →
        ReportsInKeyOrder ((toByteSubscriptions mk sub).filter fun e => decide (e.1 ≠ k)) id uris) := by
  have hne : toByteSubscriptions mk sub ≠ [] := List.ne_nil_of_mem hk
  have hid : id ≠ [] := by
    rintro rfl
    have := (hc k u0 hk).2.2
    simp at this
  obtain ⟨t, h1, h2⟩ := sstores_fresh _ (isMap_toByteSubscriptions mk sub) hne
    fun k' u h => (hc k' u h).1
  obtain ⟨t', h3, h4⟩ := sstores_delete h2 k (Or.inl hother)
  obtain ⟨uris, t'', h5, ⟨hits, g1, g2, g3⟩, -⟩ := sstores_search h4 id hid fun k' u h => by
    rcases h with ⟨rfl, rfl, -⟩ | ⟨-, h⟩
    · have := (hc k' u0 hk).2.1
      simpa using this
    · have := (hc k' u h).2.1
      simpa using this
  refine ⟨t, t', uris, t'', h1, h3, h5, ?_, ?_⟩
  · intro hf
    refine ⟨hits, g1, fun k' u => ?_, g3⟩
    rw [g2]
    refine and_congr_left fun _ => ?_
    simp only [PairsAfter, List.mem_map]
    constructor
    · rintro (⟨rfl, rfl, -⟩ | ⟨hn, h⟩)
      · exact ⟨(k', u0), hk, by simp⟩
      · exact ⟨(k', u), h, by simp [hn]⟩
    · rintro ⟨⟨a, b⟩, h, heq⟩
      simp only at heq
      split at heq
      · cases heq; exact Or.inl ⟨rfl, rfl, hf⟩
      · cases heq; exact Or.inr ⟨by assumption, h⟩
  · intro hf
    refine ⟨hits, g1, fun k' u => ?_, g3⟩
    rw [g2]
    refine and_congr_left fun _ => ?_
    simp only [PairsAfter, List.mem_filter, decide_eq_true_eq]
    constructor
    · rintro (⟨-, -, h⟩ | ⟨hn, h⟩)
      · exact absurd h hf
      · exact ⟨h, hn⟩
    · rintro ⟨h, hn⟩; exact Or.inr ⟨hn, h⟩

-- test: a deleted filter without two children is gone
example : ((newSplay toyEncoder toySub3).bind fun t => (t.delete "0".toList).bind fun t' =>
    (t'.search [0x30#8]).map Prod.fst) = some ["http://b".toList] := by decide +kernel

/-- C26: the deletion of a stored filter removes it and nothing else, for every ID, exactly when the
    filter does not have two children and is not the only one. -/
theorem C26_iff (mk : Encoder) (t : SNode) (S : Str → Str → Prop) (h : SplayReached mk t S)
    (k u0 : Str) (hk : S k u0) :
    (∀ id, LongEnough S id → ∃ t' uris t'', t.delete k = some t' ∧ t'.search id = some (uris, t'') ∧
        ReportsFrom (fun k' u => k' ≠ k ∧ S k' u) id uris) ↔
      ¬ Forks S k ∧ ∃ k' u, k' ≠ k ∧ S k' u := by
  have hst := reached_stores h
  constructor
  · intro hall
    obtain ⟨id, i1, i2, -⟩ := sstores_id hst (sstores_bits hst hk) 0
    obtain ⟨r, us, r', b1, b2, b3⟩ := hall id i1
    have hother : ∃ k' u, k' ≠ k ∧ S k' u := by
      refine Classical.byContradiction fun hn => ?_
      have ho : ∀ k' u, S k' u → k' = k := fun k' u h1 =>
        Classical.byContradiction fun h2 => hn ⟨k', u, h2, h1⟩
      rw [sstores_delete_only hst ho] at b1
      cases b1
      obtain ⟨vs, t', c1, c2, -⟩ := sstores_search hst id i1.1 i1.2
      rw [b2] at c1
      cases c1
      exact Nat.lt_irrefl _ (reportsFrom_lt b3 c2 (fun _ _ => Iff.rfl) hk i2)
    refine ⟨fun hf => ?_, hother⟩
    obtain ⟨t', a1, a2⟩ := sstores_delete hst k (Or.inl hother)
    rw [b1] at a1
    cases a1
    obtain ⟨vs, t', c1, c2, -⟩ := sstores_search a2 id i1.1 (by
      rintro e v (⟨rfl, -, -⟩ | ⟨-, he⟩)
      · exact i1.2 _ u0 hk
      · exact i1.2 e v he)
    rw [b2] at c1
    cases c1
    exact Nat.lt_irrefl _ (reportsFrom_lt b3 c2 (k := k) (w := []) (fun e v => by
      simp only [PairsAfter]
      constructor
      · rintro ⟨h1, h2⟩; exact ⟨h1, Or.inr ⟨h1, h2⟩⟩
      · rintro ⟨h1, ⟨h2, -⟩ | ⟨-, h2⟩⟩
        · exact absurd h2 h1
        · exact ⟨h1, h2⟩) (Or.inl ⟨rfl, rfl, hf⟩) i2)
  · rintro ⟨hf, hother⟩ id hid
    obtain ⟨t', a1, a2⟩ := sstores_delete hst k (Or.inl hother)
    obtain ⟨us, t'', b1, b2, -⟩ := sstores_search a2 id hid.1 (by
      rintro e v (⟨-, -, he⟩ | ⟨-, he⟩)
      · exact absurd he hf
      · exact hid.2 e v he)
    refine ⟨t', us, t'', a1, b1, reportsFrom_congr (fun e v => ?_) b2⟩
    simp only [PairsAfter]
    constructor
    · rintro (⟨-, -, h2⟩ | h2)
      · exact absurd h2 hf
      · exact h2
    · exact Or.inr

/-- C26, the code, for every tree reached: the deletion of a stored filter does not crash. When the
    filter is the only one the tree stays as it is. Otherwise all other filters stay, and the deleted
    one is gone or, when it has two children, reported as the empty URI. -/
theorem C26_reached (mk : Encoder) (t : SNode) (S : Str → Str → Prop) (h : SplayReached mk t S)
    (k : Str) :
    ((∀ k' u, S k' u → k' = k) → t.delete k = some t) ∧
    ((∃ k' u, k' ≠ k ∧ S k' u) → ∀ id, LongEnough S id →
      ∃ t' uris t'', t.delete k = some t' ∧ t'.search id = some (uris, t'') ∧
        (Forks S k →
          ReportsFrom (fun k' u => (k' = k ∧ u = []) ∨ (k' ≠ k ∧ S k' u)) id uris) ∧
        (¬ Forks S k → ReportsFrom (fun k' u => k' ≠ k ∧ S k' u) id uris)) := by
  have hst := reached_stores h
  refine ⟨fun ho => sstores_delete_only hst ho, fun hother id hid => ?_⟩
  obtain ⟨t', a1, a2⟩ := sstores_delete hst k (Or.inl hother)
  obtain ⟨us, t'', b1, b2, -⟩ := sstores_search a2 id hid.1 (by
    rintro e v (⟨rfl, -, ⟨w, hw⟩, -⟩ | ⟨-, he⟩)
    · exact hid.2 _ w hw
    · exact hid.2 e v he)
  refine ⟨t', us, t'', a1, b1, fun hf => reportsFrom_congr (fun e v => ?_) b2,
    fun hf => reportsFrom_congr (fun e v => ?_) b2⟩
  · simp only [PairsAfter]
    constructor
    · rintro (⟨h1, h2, -⟩ | h2)
      · exact Or.inl ⟨h1, h2⟩
      · exact Or.inr h2
    · rintro (⟨h1, h2⟩ | h2)
      · exact Or.inl ⟨h1, h2, hf⟩
      · exact Or.inr h2
  · simp only [PairsAfter]
    constructor
    · rintro (⟨-, -, h2⟩ | h2)
      · exact absurd h2 hf
      · exact h2
    · exact Or.inr

-- test: the fork "0" of a tree with "0", "001", "010" and "1"
example : ((newSplay toyEncoder [("http://a".toList, ["urn:epc:pat:s:0".toList]),
      ("http://b".toList, ["urn:epc:pat:s:001".toList]),
      ("http://c".toList, ["urn:epc:pat:s:010".toList]),
      ("http://d".toList, ["urn:epc:pat:s:1".toList])]).bind fun t =>
    (t.delete "0".toList).bind fun t' =>
      (t'.search [0x30#8]).map Prod.fst) = some [[], "http://b".toList] := by decide +kernel

/-- C26, refuted: a deleted filter with two children is reported as the empty URI. -/
theorem C26_reports_empty_uri :
    let sub : Subs := [("http://a".toList, ["urn:epc:pat:s:0".toList]),
      ("http://b".toList, ["urn:epc:pat:s:001".toList]),
      ("http://c".toList, ["urn:epc:pat:s:010".toList])]
    ((newSplay toyEncoder sub).bind fun t =>
      (t.deleteSubscription toyEncoder [("http://a".toList, ["urn:epc:pat:s:0".toList])]).bind fun t' =>
        (t'.search [0x30#8]).map Prod.fst) = some [[], "http://b".toList] := by
  decide +kernel

/-- C26, refuted: the only filter cannot be deleted. -/
theorem C26_only_filter_stays (mk : Encoder) (sub : Subs) (k u : Str)
    (h : toByteSubscriptions mk sub = [(k, u)]) :
    ∃ t, newSplay mk sub = some t ∧ t.delete k = some t := by
  have hl : linkSubset [(k, u)] = some [(k, .mk 0 u [])] := by
    have hs : sortStrings [k] = [k] := rfl
    have hst : ∀ r, linkStep r k [(k, PSub.mk 0 u [])] k = some [(k, PSub.mk 0 u [])] := by
      intro r; simp [linkStep]
    simp [linkSubset, link, ofFlat, mapKeys, hs, hst]
  refine ⟨.node u (some (newFilter k 0)) .nil .nil, ?_, ?_⟩
  · rw [newSplay, newSplayFrom, h, hl]
    have hs : sortStrings [k] = [k] := rfl
    simp [SNode.build, mapKeys, hs, buildStep, mapGet, PSub.uri, PSub.offset, PSub.subset]
  · rw [SNode.delete, if_pos ((hasPrefix_iff _ _).mpr (by rw [newFilter_str]; exact List.prefix_rfl))]
    simp [newFilter_str]

/-! ## C27 -/

/-- C27, the code: without subscriptions (no URI, or only URIs without a usable pattern) every search, addition and deletion (of at least one filter)
    panics. -/
theorem C27_empty_panics (mk : Encoder) (sub0 : Subs) (h0 : toByteSubscriptions mk sub0 = []) :
    ∃ t, newSplay mk sub0 = some t ∧ (∀ tr pc id, t.searchEngine tr pc id = none) ∧
      (∀ sub, toByteSubscriptions mk sub ≠ [] →
        t.addSubscription mk sub = none ∧ t.deleteSubscription mk sub = none) := by
  refine ⟨.node [] none .nil .nil, by rw [newSplay, h0]; rfl, fun tr pc id => rfl, fun sub hne => ?_⟩
  have : ∃ k ks, mapKeys (toByteSubscriptions mk sub) = k :: ks := by
    cases h : mapKeys (toByteSubscriptions mk sub) with
    | cons k ks => exact ⟨k, ks, rfl⟩
    | nil =>
      obtain ⟨e, he⟩ := List.exists_mem_of_ne_nil _ hne
      have : e.1 ∈ mapKeys (toByteSubscriptions mk sub) := by
        rw [mem_mapKeys]; exact List.mem_map.mpr ⟨e, he, rfl⟩
      rw [h] at this
      simp at this
  obtain ⟨k, ks, hk⟩ := this
  constructor
  · simp only [SNode.addSubscription, hk, List.foldlM_cons, SNode.add]; rfl
  · simp only [SNode.deleteSubscription, hk, List.foldlM_cons, SNode.delete]; rfl

example : toByteSubscriptions toyEncoder toySub3 ≠ [] := by decide +kernel
example : toByteSubscriptions toyEncoder [("http://a".toList, ["urn:epc:pat:broken".toList])] = [] := by
  decide +kernel

end Gosstrak
