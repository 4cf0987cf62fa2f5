import Verif.Proofs.PatriciaStore
import Verif.Props.ListEngine

/-! # C18, C19: a freshly built Patricia trie -/
namespace Gosstrak

theorem patricia_search (bsub : FlatSubs) (hm : IsMap bsub) (id : List Byte) (hid : id ≠ [])
    (hc : Covered bsub id) :
    (newPatriciaFrom bsub).search id =
      some (((PNode.content [] (newPatriciaFrom bsub)).filter
        fun e => decide (e.1 <+: bitsOf id)).map Prod.snd) := by
  obtain ⟨hw, -, hp, -⟩ := newPatricia_spec bsub hm fun e he => (hc e.1 e.2 he).1
  apply search_wf id hid _ [] (by simp [newPatriciaFrom]) hw (fun h => absurd rfl h) List.nil_prefix
  intro q hq
  rcases hp q hq with rfl | ⟨k, hk, hpre⟩
  · simp
  · rw [mem_mapKeys] at hk
    obtain ⟨e, he, rfl⟩ := List.mem_map.mp hk
    have := (hc e.1 e.2 he).2.1
    have := hpre.length_le
    omega

/-- C18, the code: a fresh trie reports, in key order, exactly the subscriptions whose filter starts
    the ID, except the one whose filter is the longest common prefix of all filters. -/
theorem C18_search (mk : Encoder) (tr : Translator) (sub : Subs) (hu : UrisNonEmpty sub)
    (pc id : List Byte) (hid : id ≠ []) (hc : Covered (toByteSubscriptions mk sub) id) :
    ∃ uris, ReportsInKeyOrder ((toByteSubscriptions mk sub).filter
        fun e => decide (e.1 ≠ lcp (mapKeys (toByteSubscriptions mk sub)))) id uris ∧
      (newPatricia mk sub).searchEngine tr pc id = finishSearch tr pc id uris := by
  have hm := isMap_toByteSubscriptions mk sub
  obtain ⟨hw, -, -, hcon⟩ := newPatricia_spec _ hm fun e he => (hc e.1 e.2 he).1
  refine ⟨_, ⟨_, content_ascending (bitsOf id) _ [] hw, ?_, rfl⟩, ?_⟩
  · intro k u
    rw [List.mem_filter, decide_eq_true_iff, hcon, List.mem_filter, decide_eq_true_iff]
    constructor
    · rintro ⟨⟨h1, -, h3⟩, h4⟩; exact ⟨⟨h1, h3⟩, h4⟩
    · rintro ⟨⟨h1, h3⟩, h4⟩; exact ⟨⟨h1, uri_nonempty hu k u h1, h3⟩, h4⟩
  · rw [PNode.searchEngine, newPatricia, patricia_search _ hm id hid hc]

theorem finishSearch_some {tr : Translator} {pc id : List Byte} (uris : List Str)
    (htr : tr pc id ≠ none) :
    ∃ r, finishSearch tr pc id uris = some r ∧ r.reportURIs = uris := by
  unfold finishSearch
  split
  · exact ⟨_, rfl, rfl⟩
  · cases h : tr pc id with
    | none => exact absurd h htr
    | some p => exact ⟨_, rfl, rfl⟩

/-- C18: the trie and the List engine give the same result exactly when the ID does not match a
    stored filter that is the longest common prefix of all filters. -/
theorem C18_agree_iff (mk : Encoder) (tr : Translator) (sub : Subs) (hu : UrisNonEmpty sub)
    (pc id : List Byte) (hid : id ≠ []) (hc : Covered (toByteSubscriptions mk sub) id)
    (htr : tr pc id ≠ none) :
    (newPatricia mk sub).searchEngine tr pc id = (newList mk sub).search tr pc id ↔
      ¬ ∃ u, (lcp (mapKeys (toByteSubscriptions mk sub)), u) ∈ toByteSubscriptions mk sub ∧
        lcp (mapKeys (toByteSubscriptions mk sub)) <+: bitsOf id := by
  obtain ⟨uris, h1, h2⟩ := C18_search mk tr sub hu pc id hid hc
  obtain ⟨uris', h1', h2', h3'⟩ := C16_search mk tr sub pc id hc
  have hm := isMap_toByteSubscriptions mk sub
  generalize toByteSubscriptions mk sub = bsub at *
  -- the trie's reports are the List's without the root
  obtain ⟨hits, a1, a2, a3⟩ := h1'
  have hf : ReportsInKeyOrder (bsub.filter fun e => decide (e.1 ≠ lcp (mapKeys bsub))) id
      ((hits.filter fun e => decide (e.1 ≠ lcp (mapKeys bsub))).map Prod.snd) := by
    refine ⟨_, a1.sublist (List.filter_sublist.map _), ?_, rfl⟩
    intro k u
    rw [List.mem_filter, a2, List.mem_filter]
    constructor
    · rintro ⟨⟨h1, h2⟩, h3⟩; exact ⟨⟨h1, h3⟩, h2⟩
    · rintro ⟨⟨h1, h2⟩, h3⟩; exact ⟨⟨h1, h3⟩, h2⟩
  have hmf : IsMap (bsub.filter fun e => decide (e.1 ≠ lcp (mapKeys bsub))) :=
    hm.sublist (List.filter_sublist.map _)
  have huris := reports_unique hmf h1 hf
  have hlist : (newList mk sub).search tr pc id = finishSearch tr pc id uris' := by
    by_cases h0 : uris' = []
    · rw [h2' h0]; simp [finishSearch, h0]
    · rw [h3' h0]
      have : ¬ uris'.length = 0 := by rw [List.length_eq_zero_iff]; exact h0
      simp only [finishSearch, this, if_false]
      cases tr pc id <;> rfl
  have hinj : finishSearch tr pc id uris = finishSearch tr pc id uris' ↔ uris = uris' := by
    refine ⟨fun h => ?_, fun h => by rw [h]⟩
    obtain ⟨r, hr, hru⟩ := finishSearch_some uris htr
    obtain ⟨r', hr', hru'⟩ := finishSearch_some uris' htr
    rw [hr, hr'] at h
    cases h
    rw [← hru, ← hru']
  rw [h2, hlist, hinj, huris, a3]
  constructor
  · rintro heq ⟨u, hu1, hu2⟩
    have hlen := congrArg List.length heq
    rw [List.length_map, List.length_map] at hlen
    have hlt : (hits.filter fun e => decide (e.1 ≠ lcp (mapKeys bsub))).length < hits.length := by
      rw [List.length_filter_lt_length_iff_exists]
      exact ⟨_, (a2 _ u).mpr ⟨hu1, hu2⟩, by simp⟩
    omega
  · intro hn
    congr 1
    rw [List.filter_eq_self]
    rintro ⟨k, u⟩ he
    rw [decide_eq_true_iff]
    rintro rfl
    exact hn ⟨u, (a2 _ u).mp he⟩

/-- C18, refuted: a subscription whose filter is the longest common prefix of all filters (for
    instance the only subscription) is never reported by a fresh trie. -/
theorem C18_root_never_reported (mk : Encoder) (sub : Subs) (uri : Str)
    (hu : UrisNonEmpty sub)
    (hroot : (lcp (mapKeys (toByteSubscriptions mk sub)), uri) ∈ toByteSubscriptions mk sub)
    (honly : ∀ k, (k, uri) ∈ toByteSubscriptions mk sub →
      k = lcp (mapKeys (toByteSubscriptions mk sub)))
    (tr : Translator) (pc id : List Byte) (hc : Covered (toByteSubscriptions mk sub) id) :
    ∃ uris, uri ∉ uris ∧
      (newPatricia mk sub).searchEngine tr pc id = finishSearch tr pc id uris := by
  have hid : id ≠ [] := by
    rintro rfl
    have := (hc _ _ hroot).2.2
    simp at this
  obtain ⟨uris, ⟨hits, -, h2, rfl⟩, h⟩ := C18_search mk tr sub hu pc id hid hc
  refine ⟨_, ?_, h⟩
  intro hin
  obtain ⟨⟨k, u⟩, hk, rfl⟩ := List.mem_map.mp hin
  obtain ⟨h3, -⟩ := (h2 k u).mp hk
  rw [List.mem_filter, decide_eq_true_iff] at h3
  exact h3.2 (honly k h3.1)

/-- C18, refuted: the two engines do not always agree. -/
theorem C18_not_equal_to_list :
    ¬ ∀ (mk : Encoder) (tr : Translator) (sub : Subs) (pc id : List Byte), UrisNonEmpty sub →
      id ≠ [] → Covered (toByteSubscriptions mk sub) id →
      (newPatricia mk sub).searchEngine tr pc id = (newList mk sub).search tr pc id := by
  intro h
  have := h toyEncoder (fun _ _ => some ("x".toList, false))
    [("http://a".toList, ["urn:epc:pat:s:0".toList])] [] [0x30#8] (by unfold UrisNonEmpty; decide +kernel) (by simp) (by
      have h : ∀ e ∈ toByteSubscriptions toyEncoder [("http://a".toList, ["urn:epc:pat:s:0".toList])],
        IsBitStr e.1 ∧ Covers e.1 0 [0x30#8] := by decide +kernel
      exact fun k u hk => h (k, u) hk)
  revert this
  decide +kernel

-- test: three filters without a common one; the root is not a stored filter
example : (newPatricia toyEncoder toySub3).searchEngine (fun _ _ => some ("x".toList, false)) [] [0x30#8]
    = some ⟨"x".toList, ["http://a".toList, "http://b".toList], false⟩ := by decide +kernel
example : lcp (mapKeys (toByteSubscriptions toyEncoder toySub3)) ∉
    (toByteSubscriptions toyEncoder toySub3).map Prod.fst := by decide +kernel
-- test: the only subscription
example : (newPatricia toyEncoder [("http://a".toList, ["urn:epc:pat:s:0".toList])]).searchEngine
    (fun _ _ => some ("x".toList, false)) [] [0x30#8] = some ⟨[], [], true⟩ := by decide +kernel

/-- C19: a search in a fresh trie does not panic on a non-empty tag that covers the filters (unless
    the translation of a matching tag does). -/
theorem C19_no_panic (mk : Encoder) (sub : Subs) (id : List Byte) (hid : id ≠ [])
    (hc : Covered (toByteSubscriptions mk sub) id) :
    ∃ uris, (newPatricia mk sub).search id = some uris := by
  exact ⟨_, patricia_search _ (isMap_toByteSubscriptions mk sub) id hid hc⟩

/-- C19, the remaining tag: the empty one makes every trie panic. -/
theorem C19_empty_tag (mk : Encoder) (sub : Subs)
    (hb : ∀ k u, (k, u) ∈ toByteSubscriptions mk sub → IsBitStr k) :
    (newPatricia mk sub).search [] = none := by
  have hl : IsFilterStr (lcp (mapKeys (toByteSubscriptions mk sub))) := by
    intro c hc
    by_cases h0 : mapKeys (toByteSubscriptions mk sub) = []
    · rw [h0] at hc
      simp [lcp] at hc
    · obtain ⟨k, hk⟩ := List.exists_mem_of_ne_nil _ h0
      have hp := (lcp_spec _ h0).1 k hk
      rw [mem_mapKeys] at hk
      obtain ⟨e, he, rfl⟩ := List.mem_map.mp hk
      rcases hb e.1 e.2 he c (hp.subset hc) with h | h
      · exact Or.inl h
      · exact Or.inr (Or.inl h)
  have hm : (newFilter (lcp (mapKeys (toByteSubscriptions mk sub))) 0).matchID [] = none :=
    (C02_short_id_exact _ hl 0 [] (by simp [Covers])).1.mpr (by intro i c _ _ h; simp at h)
  simp [newPatricia, newPatriciaFrom, PNode.search, hm]

-- the empty tag makes even the empty trie panic
example : (newPatricia toyEncoder []).search [] = none := by decide +kernel

end Gosstrak
