import Verif.Proofs.Short
import Verif.Props.Patricia
import Verif.Props.PatriciaUpdate
import Verif.Props.Splay

/-! # C96: tags shorter than some filters -/
namespace Gosstrak

/-- C96, List, for tags of any length: the search panics if the tag ends inside a filter; otherwise it
    reports exactly the subscriptions whose filter starts the tag, filters longer than the tag among
    the others or not. -/
theorem C96_list (mk : Encoder) (sub : Subs)
    (hb : ∀ k u, (k, u) ∈ toByteSubscriptions mk sub → IsBitStr k)
    (tr : Translator) (pc id : List Byte) :
    (TagTooShort (toByteSubscriptions mk sub) id → (newList mk sub).search tr pc id = none) ∧
    (¬ TagTooShort (toByteSubscriptions mk sub) id →
      ∃ uris, ReportsInKeyOrder (toByteSubscriptions mk sub) id uris ∧
        (newList mk sub).search tr pc id = finishSearch tr pc id uris) := by
  have hm := isMap_toByteSubscriptions mk sub
  generalize hbs : toByteSubscriptions mk sub = bsub at *
  obtain ⟨h1, h2⟩ := listMatches_any id (sortedPairs bsub) fun e he =>
    hb e.1 e.2 ((mem_sortedPairs bsub hm e).mp he)
  have hex : (∃ e ∈ sortedPairs bsub, TagEndsInside id e.1) ↔ TagTooShort bsub id := by
    constructor
    · rintro ⟨e, he, ht⟩; exact ⟨e.1, e.2, (mem_sortedPairs bsub hm e).mp he, ht⟩
    · rintro ⟨k, u, he, ht⟩; exact ⟨(k, u), (mem_sortedPairs bsub hm _).mpr he, ht⟩
  rw [hex] at h1 h2
  have hl : newList mk sub = (sortedPairs bsub).map toMatch := by
    rw [newList, hbs, exactMatches_eq]
  constructor
  · intro h
    rw [hl, ListEngine.search, h1 h]
  · intro h
    refine ⟨_, ⟨(sortedPairs bsub).filter fun e => decide (e.1 <+: bitsOf id), ?_, ?_, rfl⟩, ?_⟩
    · have h := mapKeys_lt hm
      rw [← keys_sortedPairs] at h
      exact h.sublist (List.filter_sublist.map _)
    · intro k u
      rw [List.mem_filter, decide_eq_true_iff, mem_sortedPairs bsub hm]
    · rw [hl, ListEngine.search, h2 h]

/-- C96, List after any history of additions and deletions. -/
theorem C96_list_history (mk : Encoder) (sub : Subs) (ops : List SubsOp) :
    ∃ pairs : FlatSubs, pairs.Nodup ∧
      (∀ e, e ∈ pairs ↔ SetAfter mk (· ∈ toByteSubscriptions mk sub) ops e) ∧
      ((∀ k u, (k, u) ∈ pairs → IsBitStr k) → ∀ (tr : Translator) (pc id : List Byte),
        (TagTooShort pairs id →
          (ops.foldl (ListEngine.apply mk) (newList mk sub)).search tr pc id = none) ∧
        (¬ TagTooShort pairs id →
          (ops.foldl (ListEngine.apply mk) (newList mk sub)).search tr pc id = finishSearch tr pc id
            ((pairs.filter fun e => decide (e.1 <+: bitsOf id)).map Prod.snd))) := by
  have hm := isMap_toByteSubscriptions mk sub
  obtain ⟨l', h1, h2, h3⟩ := list_apply_ops mk ops (sortedPairs (toByteSubscriptions mk sub))
    (· ∈ toByteSubscriptions mk sub) (nodup_sortedPairs _ hm) fun e => mem_sortedPairs _ hm e
  refine ⟨l', h2, h3, fun hb tr pc id => ?_⟩
  obtain ⟨g1, g2⟩ := listMatches_any id l' fun e he => hb e.1 e.2 he
  have hex : (∃ e ∈ l', TagEndsInside id e.1) ↔ TagTooShort l' id := by
    constructor
    · rintro ⟨e, he, ht⟩; exact ⟨e.1, e.2, he, ht⟩
    · rintro ⟨k, u, he, ht⟩; exact ⟨(k, u), he, ht⟩
  rw [hex] at g1 g2
  rw [newList, exactMatches_eq, h1, ListEngine.search]
  exact ⟨fun h => by rw [g1 h], fun h => by rw [g2 h]⟩

/-- C96, fresh SplayTree, for tags of any length: as the List, panics included. -/
theorem C96_splay (mk : Encoder) (sub : Subs) (hne : toByteSubscriptions mk sub ≠ [])
    (hb : ∀ k u, (k, u) ∈ toByteSubscriptions mk sub → IsBitStr k)
    (tr : Translator) (pc id : List Byte) :
    ∃ t, newSplay mk sub = some t ∧
      (TagTooShort (toByteSubscriptions mk sub) id → t.searchEngine tr pc id = none) ∧
      (¬ TagTooShort (toByteSubscriptions mk sub) id →
        ∃ uris t', ReportsInKeyOrder (toByteSubscriptions mk sub) id uris ∧
          t.searchEngine tr pc id = (finishSearch tr pc id uris).map fun r => (r, t')) := by
  obtain ⟨t, h1, h2⟩ := sstores_fresh _ (isMap_toByteSubscriptions mk sub) hne hb
  obtain ⟨g1, g2⟩ := sstores_any h2 id
  refine ⟨t, h1, fun h => ?_, fun h => ?_⟩
  · unfold SNode.searchEngine; rw [g1 h]
  · obtain ⟨uris, t', h3, h4, -⟩ := g2 h
    exact ⟨uris, t', h4, by unfold SNode.searchEngine; rw [h3]⟩

/-- C96: the first search of the tree and the List give the same result for every tag, also when that
    result is a panic. -/
theorem C96_splay_equals_list (mk : Encoder) (sub : Subs) (hne : toByteSubscriptions mk sub ≠ [])
    (hb : ∀ k u, (k, u) ∈ toByteSubscriptions mk sub → IsBitStr k)
    (tr : Translator) (pc id : List Byte) :
    ∃ t, newSplay mk sub = some t ∧
      (t.searchEngine tr pc id).map Prod.fst = (newList mk sub).search tr pc id := by
  obtain ⟨t, h1, h2, h3⟩ := C96_splay mk sub hne hb tr pc id
  obtain ⟨g2, g3⟩ := C96_list mk sub hb tr pc id
  refine ⟨t, h1, ?_⟩
  by_cases h : TagTooShort (toByteSubscriptions mk sub) id
  · rw [h2 h, g2 h]; rfl
  · obtain ⟨uris, t', a1, a2⟩ := h3 h
    obtain ⟨uris', b1, b2⟩ := g3 h
    have := reports_unique (isMap_toByteSubscriptions mk sub) a1 b1
    subst this
    rw [a2, b2, Option.map_map]
    cases finishSearch tr pc id uris <;> rfl

/-- C96, SplayTree after any history of good calls (`GoodStep`). -/
theorem C96_splay_history (mk : Encoder) (sub : Subs) (calls : List SplayCall)
    (hne : toByteSubscriptions mk sub ≠ [])
    (hbit : ∀ k u, (k, u) ∈ toByteSubscriptions mk sub → IsBitStr k)
    (hg : GoodSteps (fun k u => (k, u) ∈ toByteSubscriptions mk sub) (calls.flatMap (stepsOf mk)))
    (S : Str → Str → Prop)
    (hS : S = (calls.flatMap (stepsOf mk)).foldl PairsAfter
      (fun k u => (k, u) ∈ toByteSubscriptions mk sub)) :
    ∃ t0 t, newSplay mk sub = some t0 ∧ calls.foldlM (SNode.applyCall mk) t0 = some t ∧
      ∀ id : List Byte, ((∃ k u, S k u ∧ TagEndsInside id k) → t.search id = none) ∧
        ((¬ ∃ k u, S k u ∧ TagEndsInside id k) →
          ∃ uris t', t.search id = some (uris, t') ∧ ReportsFrom S id uris) := by
  obtain ⟨t0, h1, h2⟩ := sstores_fresh _ (isMap_toByteSubscriptions mk sub) hne hbit
  obtain ⟨t, h3, h4⟩ := sstores_steps mk calls t0 _ h2 hg
  refine ⟨t0, t, h1, h3, fun id => ?_⟩
  rw [hS]
  obtain ⟨g1, g2⟩ := sstores_any h4 id
  refine ⟨g1, fun h => ?_⟩
  obtain ⟨uris, t', a, b, -⟩ := g2 h
  exact ⟨uris, t', a, b⟩

/-- C96, fresh PatriciaTrie, for tags of any length: the search panics on the empty tag, and on a tag
    that ends on a branch, that is, if the filters that begin with the tag's bits all go on, with the
    same bit. Otherwise it reports the subscriptions whose filter starts the tag (the one of the root
    excepted, C18). -/
theorem C96_patricia (mk : Encoder) (sub : Subs) (hu : UrisNonEmpty sub)
    (hb : ∀ k u, (k, u) ∈ toByteSubscriptions mk sub → IsBitStr k)
    (tr : Translator) (pc id : List Byte) :
    (id = [] ∨ TagEndsOnBranch (toByteSubscriptions mk sub) id →
      (newPatricia mk sub).searchEngine tr pc id = none) ∧
    (id ≠ [] → ¬ TagEndsOnBranch (toByteSubscriptions mk sub) id →
      ∃ uris, ReportsInKeyOrder ((toByteSubscriptions mk sub).filter
          fun e => decide (e.1 ≠ lcp (mapKeys (toByteSubscriptions mk sub)))) id uris ∧
        (newPatricia mk sub).searchEngine tr pc id = finishSearch tr pc id uris) := by
  have hm := isMap_toByteSubscriptions mk sub
  have hb' : ∀ e ∈ toByteSubscriptions mk sub, IsBitStr e.1 := fun e he => hb e.1 e.2 he
  obtain ⟨hw, -, -, hcon⟩ := newPatricia_spec _ hm hb'
  have hin := patricia_inside _ hm hb' (fun e he => uri_nonempty hu e.1 e.2 he) id
  have hBne : id ≠ [] → ([] : Str) ≠ bitsOf id := by
    intro hid h
    have := congrArg List.length h
    rw [bitsOf_length] at this
    have := List.length_pos_iff.mpr hid
    simp at *
    omega
  have hs := fun hid : id ≠ [] => search_any id (newPatriciaFrom (toByteSubscriptions mk sub)) []
    (by simp [newPatriciaFrom]) hw (fun h => absurd rfl h) List.nil_prefix (hBne hid)
  constructor
  · intro h
    by_cases hid : id = []
    · subst hid
      rw [PNode.searchEngine, C19_empty_tag mk sub hb]
    · have := (hs hid).1 ((hin hid).mpr (h.resolve_left hid))
      rw [PNode.searchEngine, newPatricia, this]
  · intro hid h
    have := (hs hid).2 fun h' => h ((hin hid).mp h')
    refine ⟨_, ⟨_, content_ascending (bitsOf id) _ [] hw, ?_, rfl⟩, ?_⟩
    · intro k u
      rw [List.mem_filter, decide_eq_true_iff, hcon, List.mem_filter, decide_eq_true_iff]
      constructor
      · rintro ⟨⟨h1, -, h3⟩, h4⟩; exact ⟨⟨h1, h3⟩, h4⟩
      · rintro ⟨⟨h1, h3⟩, h4⟩; exact ⟨⟨h1, uri_nonempty hu k u h1, h3⟩, h4⟩
    · rw [PNode.searchEngine, newPatricia, this]

/-- C96, PatriciaTrie after any history as in C20 and C21: the search panics if the tag is empty or ends
    strictly inside an edge, and otherwise reports what is stored and starts the tag. -/
theorem C96_patricia_history (mk : Encoder) (sub : Subs) (ops : List SubsOp)
    (hu : UrisNonEmpty sub) (hbit : ∀ k u, (k, u) ∈ toByteSubscriptions mk sub → IsBitStr k)
    (hi : Intact (freshView mk sub) (ops.flatMap (keyOps mk))) (tr : Translator) (pc id : List Byte) :
    (id = [] ∨ InsideEdge (viewAfter mk sub ops).nodes (bitsOf id) →
      (trieAfter mk sub ops).searchEngine tr pc id = none) ∧
    (id ≠ [] → ¬ InsideEdge (viewAfter mk sub ops).nodes (bitsOf id) →
      ∃ uris, ReportsOf (viewAfter mk sub ops).stored id uris ∧
        (trieAfter mk sub ops).searchEngine tr pc id = finishSearch tr pc id uris) := by
  obtain ⟨h1, h2⟩ := shows_any (shows_history mk sub ops hu hbit hi) id
  refine ⟨fun h => by rw [PNode.searchEngine, h1 h], fun hid h => ?_⟩
  obtain ⟨uris, a, b⟩ := h2 hid h
  exact ⟨uris, a, by rw [PNode.searchEngine, b]⟩

/-- C96: a non-empty tag that makes the trie panic makes the List panic. -/
theorem C96_branch_too_short (bsub : FlatSubs) (id : List Byte) (h : TagEndsOnBranch bsub id) :
    TagTooShort bsub id := by
  obtain ⟨c, ⟨k, u, hk, hp⟩, -⟩ := h
  refine ⟨k, u, hk, (List.prefix_append _ _).trans hp, Or.inl ?_⟩
  rintro rfl
  have := hp.length_le
  rw [List.length_append, List.length_singleton] at this
  omega

/-- C96: a tag too short for the List is harmless for the trie exactly if it is itself one of the
    filters or the filters that begin with its bits go on with both bits. -/
theorem C96_trie_survives (bsub : FlatSubs) (hb : ∀ k u, (k, u) ∈ bsub → IsBitStr k)
    (id : List Byte) (hid : id ≠ []) (h : TagTooShort bsub id) :
    ¬ TagEndsOnBranch bsub id ↔ (∃ u, (bitsOf id, u) ∈ bsub) ∨
      ((∃ k u, (k, u) ∈ bsub ∧ bitsOf id ++ ['0'] <+: k) ∧
        ∃ k u, (k, u) ∈ bsub ∧ bitsOf id ++ ['1'] <+: k) := by
  obtain ⟨k0, u0, hk0, hp0, hne0⟩ := h
  have hne0 := hne0.resolve_right hid
  have bit : ∀ k u c, (k, u) ∈ bsub → bitsOf id ++ [c] <+: k → c = '0' ∨ c = '1' := by
    intro k u c hk hp
    exact hb k u hk c (hp.subset (by simp))
  have same : ∀ {k : Str} {c d : Char}, bitsOf id ++ [c] <+: k → bitsOf id ++ [d] <+: k → c = d := by
    intro k c d h1 h2
    have := (List.prefix_of_prefix_length_le h1 h2 (by simp)).eq_of_length (by simp)
    simpa using this
  constructor
  · intro hn
    by_cases hex : ∃ u, (bitsOf id, u) ∈ bsub
    · exact Or.inl hex
    right
    obtain ⟨c, hc⟩ := prefix_snoc_of_proper hp0 hne0
    -- another filter goes on otherwise
    have hother : ∃ k u d, (k, u) ∈ bsub ∧ bitsOf id ++ [d] <+: k ∧ d ≠ c := by
      refine Classical.byContradiction fun hno => hn ⟨c, ⟨k0, u0, hk0, hc⟩, fun k u hk hp => ?_⟩
      have hne : bitsOf id ≠ k := by rintro rfl; exact hex ⟨u, hk⟩
      obtain ⟨d, hd⟩ := prefix_snoc_of_proper hp hne
      by_cases hdc : d = c
      · rw [← hdc]; exact hd
      · exact absurd ⟨k, u, d, hk, hd, hdc⟩ hno
    obtain ⟨k1, u1, d, hk1, hd, hdc⟩ := hother
    rcases bit k0 u0 c hk0 hc with rfl | rfl <;> rcases bit k1 u1 d hk1 hd with rfl | rfl
    · exact absurd rfl hdc
    · exact ⟨⟨k0, u0, hk0, hc⟩, ⟨k1, u1, hk1, hd⟩⟩
    · exact ⟨⟨k1, u1, hk1, hd⟩, ⟨k0, u0, hk0, hc⟩⟩
    · exact absurd rfl hdc
  · rintro (⟨u, hu⟩ | ⟨⟨k, u, hk, hp⟩, ⟨k', u', hk', hp'⟩⟩) ⟨c, -, hall⟩
    · have := (hall _ u hu List.prefix_rfl).length_le
      rw [List.length_append, List.length_singleton] at this
      omega
    · have h1 := same (hall k u hk ((List.prefix_append _ _).trans hp)) hp
      have h2 := same (hall k' u' hk' ((List.prefix_append _ _).trans hp')) hp'
      rw [h1] at h2
      exact absurd h2 (by decide)

/-- C96: what is asked of a tag so that all three engines report what is due: it is not empty and
    ends inside none of the filters. -/
theorem C96_safe (mk : Encoder) (sub : Subs) (hne : toByteSubscriptions mk sub ≠ [])
    (hu : UrisNonEmpty sub) (hb : ∀ k u, (k, u) ∈ toByteSubscriptions mk sub → IsBitStr k)
    (tr : Translator) (pc id : List Byte)
    (h : ¬ TagTooShort (toByteSubscriptions mk sub) id) :
    ∃ t uris uris' t', newSplay mk sub = some t ∧
      ReportsInKeyOrder (toByteSubscriptions mk sub) id uris ∧
      ReportsInKeyOrder ((toByteSubscriptions mk sub).filter
        fun e => decide (e.1 ≠ lcp (mapKeys (toByteSubscriptions mk sub)))) id uris' ∧
      (newList mk sub).search tr pc id = finishSearch tr pc id uris ∧
      t.searchEngine tr pc id = (finishSearch tr pc id uris).map (fun r => (r, t')) ∧
      (newPatricia mk sub).searchEngine tr pc id = finishSearch tr pc id uris' := by
  have hid : id ≠ [] := by
    rintro rfl
    obtain ⟨e, he⟩ := List.exists_mem_of_ne_nil _ hne
    exact h ⟨e.1, e.2, he, by rw [bitsOf_nil]; exact List.nil_prefix, Or.inr rfl⟩
  obtain ⟨uris, a1, a2⟩ := (C96_list mk sub hb tr pc id).2 h
  obtain ⟨t, b1, -, b2⟩ := C96_splay mk sub hne hb tr pc id
  obtain ⟨uris2, t', b3, b4⟩ := b2 h
  obtain ⟨uris', c1, c2⟩ := (C96_patricia mk sub hu hb tr pc id).2 hid
    fun hbr => h (C96_branch_too_short _ id hbr)
  have := reports_unique (isMap_toByteSubscriptions mk sub) b3 a1
  subst this
  exact ⟨t, uris2, uris', t', b1, a1, c1, a2, b4, c2⟩

/-! ### tests -/

/-- filters of eight, nine and twelve bits -/
def shortSub : Subs :=
  [("http://a".toList, ["urn:epc:pat:s:00110000.0".toList]),
   ("http://b".toList, ["urn:epc:pat:s:00110000.1000".toList]),
   ("http://c".toList, ["urn:epc:pat:s:0011".toList]),
   ("http://d".toList, ["urn:epc:pat:s:1100110011".toList])]

private def okTr : Translator := fun _ _ => some ("x".toList, false)

-- the filters of the first two URIs go on with both bits after the tag's: the List and the tree panic,
-- the trie does not
example : TagTooShort (toByteSubscriptions toyEncoder shortSub) [0x30#8] ∧
    (newList toyEncoder shortSub).search okTr [] [0x30#8] = none ∧
    ((newSplay toyEncoder shortSub).bind fun t => t.searchEngine okTr [] [0x30#8]) = none ∧
    (newPatricia toyEncoder shortSub).searchEngine okTr [] [0x30#8] =
      some ⟨"x".toList, ["http://c".toList], false⟩ := by
  refine ⟨⟨"001100000".toList, "http://a".toList, ?_, ?_⟩, ?_, ?_, ?_⟩ <;> decide +kernel

-- a tag that ends on a branch
example : TagEndsOnBranch (toByteSubscriptions toyEncoder shortSub) [0xcc#8] ∧
    (newPatricia toyEncoder shortSub).searchEngine okTr [] [0xcc#8] = none := by
  refine ⟨⟨'1', ⟨"1100110011".toList, "http://d".toList, ?_, ?_⟩, ?_⟩, ?_⟩
  · decide +kernel
  · decide +kernel
  · have h : ∀ e ∈ toByteSubscriptions toyEncoder shortSub, bitsOf [0xcc#8] <+: e.1 →
        bitsOf [0xcc#8] ++ ['1'] <+: e.1 := by decide +kernel
    exact fun k u hk => h (k, u) hk
  · decide +kernel

-- a tag shorter than three of the filters but inside none of them
example : ¬ TagTooShort (toByteSubscriptions toyEncoder shortSub) [0x31#8] ∧
    (newList toyEncoder shortSub).search okTr [] [0x31#8] =
      some ⟨"x".toList, ["http://c".toList], false⟩ := by
  constructor
  · have h : ∀ e ∈ toByteSubscriptions toyEncoder shortSub, ¬ TagEndsInside [0x31#8] e.1 := by
      decide +kernel
    rintro ⟨k, u, hk, ht⟩
    exact h (k, u) hk ht
  · decide +kernel

-- a trie of which the fork behind the tag's bits was deleted: now the tag ends inside an edge
example :
    let ops : List SubsOp := [.delete [("http://a".toList, ["urn:epc:pat:s:001100000".toList])],
      .delete [("http://c".toList, ["urn:epc:pat:s:00110000".toList])]]
    Intact (freshView toyEncoder shortSub) (ops.flatMap (keyOps toyEncoder)) ∧
    ¬ InsideEdge (viewAfter toyEncoder shortSub []).nodes (bitsOf [0x30#8]) ∧
    InsideEdge (viewAfter toyEncoder shortSub ops).nodes (bitsOf [0x30#8]) ∧
    (trieAfter toyEncoder shortSub ops).searchEngine okTr [] [0x30#8] = none ∧
    (trieAfter toyEncoder shortSub ops).searchEngine okTr [] [0x31#8] =
      some ⟨"x".toList, ["http://c".toList], false⟩ := by
  decide +kernel

-- the hypotheses on the filters
example : toByteSubscriptions toyEncoder shortSub ≠ [] ∧ UrisNonEmpty shortSub ∧
    ∀ e ∈ toByteSubscriptions toyEncoder shortSub, IsBitStr e.1 := by
  unfold UrisNonEmpty; decide +kernel

end Gosstrak
