import Verif.Proofs.Gob
import Verif.Model.Legacy

namespace Gosstrak

/-! ## C48 -/

/-- Decoding what a list engine wrote gives no error and appends its filters, in order, to those
    present; a new engine becomes equal to the written one. -/
theorem C48_round_trip (l : ListEngine) (old : List (Option FilterObject × Str)) :
    unmarshalList old (marshalList l) = (old ++ l.map fun em => (some em.1, em.2), false) := by
  unfold marshalList unmarshalList
  have := unmarshalListLoop_marshal l old []
  rw [List.append_nil] at this
  simpa [gobStr, gobInt] using this

example : unmarshalList [] (marshalList [(newFilter "0011".toList 0, "a".toList), (newFilter "1".toList 0, "b".toList)]) =
    ([(some (newFilter "0011".toList 0), "a".toList), (some (newFilter "1".toList 0), "b".toList)], false) := by
  decide +kernel

/-! ## C49 -/

/-- A splay tree is written unless its root is nil, and comes back unchanged without an error. -/
theorem C49_round_trip (t : SNode) :
    if t = .nil then marshalSplay t = none
    else ∃ d, marshalSplay t = some d ∧ unmarshalSplay d = (t, false) := by
  split
  · rename_i h; simp [marshalSplay, h]
  · rename_i h
    refine ⟨[.str "Engine:filtering.SplayTree".toList, .bin t.marshal], by simp [marshalSplay, h], ?_⟩
    have := unmarshalSNode_marshal t h
    simpa [unmarshalSplay, gobStr, gobBin] using this

example : ∃ t, newSplayFrom [("0011".toList, "a".toList), ("00110011".toList, "b".toList), ("1".toList, "c".toList)]
      = some t ∧ t ≠ .nil ∧ (marshalSplay t).map unmarshalSplay = some (t, false) :=
  ⟨.node "a".toList (some (newFilter "0011".toList 0))
      (.node "b".toList (some (newFilter "0011".toList 4)) .nil .nil)
      (.node "c".toList (some (newFilter "1".toList 0)) .nil .nil), by decide +kernel⟩

/-! ## C50 -/

/-- Decoding what a trie wrote gives the trie without everything below a branch for zero that has no
    sibling. It gives an error exactly if the node at the end of the zero branches has only a child
    for one. A trie without root panics. -/
theorem C50_decoded (t : PNode) :
    if t = .nil then marshalPatricia t = none
    else ∃ d, marshalPatricia t = some d ∧ (unmarshalPatricia d).1 = t.prune.raw ∧
      ((unmarshalPatricia d).2 = true ↔ t.EndsLoneOne) := by
  split
  · rename_i h; simp [marshalPatricia, h]
  · rename_i h
    refine ⟨[.str "Engine:filtering.PatriciaTrie".toList, .bin t.marshal], by simp [marshalPatricia, h], ?_⟩
    have e : unmarshalPatricia [.str "Engine:filtering.PatriciaTrie".toList, .bin t.marshal] =
        unmarshalPNode t.marshal := by
      simp [unmarshalPatricia, gobStr, gobBin]
    rw [e]
    exact ⟨unmarshalPNode_fst t h, unmarshalPNode_snd t h⟩

/-- The decoded trie is the written one exactly if no zero branch is without a sibling. -/
theorem C50_equal_iff (t : PNode) (h : t ≠ .nil) :
    ∃ d, marshalPatricia t = some d ∧
      ((unmarshalPatricia d).1 = t.raw ↔ ¬ t.HasLoneZero) := by
  have := C50_decoded t
  rw [if_neg h] at this
  obtain ⟨d, h1, h2, -⟩ := this
  refine ⟨d, h1, ?_⟩
  rw [h2, ← prune_eq_iff]
  exact ⟨raw_injective, fun h => by rw [h]⟩

/-- If every node has both children or none, the trie comes back unchanged without an error. -/
theorem C50_full (t : PNode) (h : t ≠ .nil) (hf : t.Full) :
    ∃ d, marshalPatricia t = some d ∧ unmarshalPatricia d = (t.raw, false) := by
  have := C50_decoded t
  rw [if_neg h] at this
  obtain ⟨d, h1, h2, h3⟩ := this
  refine ⟨d, h1, ?_⟩
  rw [(prune_eq_iff t).mpr (full_not_lone t hf)] at h2
  have h4 : (unmarshalPatricia d).2 = false := by
    cases he : (unmarshalPatricia d).2 with
    | false => rfl
    | true => exact absurd (h3.mp he) (full_not_ends t hf)
  exact Prod.ext h2 h4

example : (newPatriciaFrom [("0011".toList, "a".toList), ("0000".toList, "b".toList)]).Full := by
  rw [show newPatriciaFrom [("0011".toList, "a".toList), ("0000".toList, "b".toList)] =
    .node [] (newFilter "00".toList 0) (.node "a".toList (newFilter "11".toList 2) .nil .nil)
      (.node "b".toList (newFilter "00".toList 2) .nil .nil) by decide +kernel]
  simp [PNode.Full]

/-- A trie made by the constructor, decoded without an error, that has lost a subscription. -/
theorem C50_lost_match :
    let t := newPatriciaFrom [("0011".toList, "a".toList), ("00110000".toList, "b".toList)]
    ∃ d t', marshalPatricia t = some d ∧ unmarshalPatricia d = (PNode.raw t', false) ∧
      t.search [0x30#8] = some ["b".toList] ∧ t'.search [0x30#8] = some [] := by
  have e : newPatriciaFrom [("0011".toList, "a".toList), ("00110000".toList, "b".toList)] =
      .node [] (newFilter "0011".toList 0) .nil (.node "b".toList (newFilter "0000".toList 4) .nil .nil) := by
    decide +kernel
  rw [e]
  refine ⟨_, .node [] (newFilter "0011".toList 0) .nil .nil, rfl, ?_⟩
  decide +kernel

/-- A trie made by the constructor whose decoding gives an error, although it comes back unchanged. -/
theorem C50_false_alarm :
    let t := newPatriciaFrom [("0011".toList, "a".toList), ("00111".toList, "b".toList)]
    ∃ d, marshalPatricia t = some d ∧ unmarshalPatricia d = (t.raw, true) := by
  have e : newPatriciaFrom [("0011".toList, "a".toList), ("00111".toList, "b".toList)] =
      .node [] (newFilter "0011".toList 0) (.node "b".toList (newFilter "1".toList 4) .nil .nil) .nil := by
    decide +kernel
  rw [e]
  refine ⟨_, rfl, ?_⟩
  decide +kernel

-- a lone one branch elsewhere does no harm
example :
    let t := newPatriciaFrom [("0".toList, "a".toList), ("11".toList, "b".toList), ("111".toList, "c".toList)]
    (marshalPatricia t).map unmarshalPatricia = some (t.raw, false) := by
  decide +kernel

/-! ## C51 -/

/-- Whatever is decoded, the subscriptions of the engine stay as they were. -/
theorem C51_never_stored (filters : Subs) (d : List Tok) : (unmarshalLegacy filters d).1 = filters := by
  unfold unmarshalLegacy
  split
  · rfl
  · split
    · rfl
    · split
      · rfl
      · exact unmarshalLegacyLoop_filters _ _ _ _ _

/-- So a decoded engine matches nothing. -/
theorem C51_no_match (sub : Subs) (tr : Translator) (pc id : List Byte) (r : SearchResult)
    (h : legacySearch tr (unmarshalLegacy [] (marshalLegacy sub)).1 pc id = some r) :
    r.reportURIs = [] ∧ r.err = true := by
  rw [C51_never_stored] at h
  unfold legacySearch at h
  split at h
  · simp at h
  · cases h; exact ⟨rfl, rfl⟩
  · cases h; exact ⟨rfl, rfl⟩

/-- the beginning of decoding what a legacy engine wrote -/
theorem unmarshalLegacy_marshal (sub old : Subs) : unmarshalLegacy old (marshalLegacy sub) =
    unmarshalLegacyLoop (mapKeys sub).length (mapKeys sub).length old false
      ((mapKeys sub).flatMap fun fs => [Tok.str fs, Tok.int ((mapGet sub fs).getD []).length] ++
        ((mapGet sub fs).getD []).map Tok.str) := by
  simp [unmarshalLegacy, marshalLegacy, gobStr, gobInt]

/-- Of `n` subscribers with fewer than `n * n` patterns in all, decoding gives an error. -/
theorem C51_error_if_few (sub : Subs) (hm : IsMap sub) (old : Subs)
    (h : (sub.map fun e => e.2.length).sum < sub.length * sub.length) :
    (unmarshalLegacy old (marshalLegacy sub)).2 = true := by
  rw [unmarshalLegacy_marshal]
  have hl : (mapKeys sub).length = sub.length := by
    unfold mapKeys; rw [length_sortStrings, List.length_map]
  cases he : (unmarshalLegacyLoop (mapKeys sub).length (mapKeys sub).length old false
      ((mapKeys sub).flatMap fun fs => [Tok.str fs, Tok.int ((mapGet sub fs).getD []).length] ++
        ((mapGet sub fs).getD []).map Tok.str)).2 with
  | true => rfl
  | false =>
    exfalso
    have hn : (mapKeys sub).length ≠ 0 := by
      intro h0
      rw [hl] at h0
      rw [h0] at h
      simp at h
    have := legacyLoop_ok _ hn _ _ _ _ hn he
    rw [length_legacyTokens, sum_keys List.length [] sub hm, hl, Nat.mul_add] at this
    omega

example : (unmarshalLegacy [] (marshalLegacy [("http://a".toList, ["p".toList]), ("http://b".toList, ["q".toList])])).2
    = true := by decide +kernel

/-- If each of `n` subscribers has `n` patterns, there is no error, but still nothing is decoded. -/
theorem C51_silent (sub : Subs) (hm : IsMap sub) (h : ∀ e ∈ sub, e.2.length = sub.length) :
    unmarshalLegacy [] (marshalLegacy sub) = ([], false) := by
  rw [unmarshalLegacy_marshal]
  have hl : (mapKeys sub).length = sub.length := by
    unfold mapKeys; rw [length_sortStrings, List.length_map]
  refine legacyLoop_equal sub _ _ _ fun k hk => ?_
  obtain ⟨e, he, rfl⟩ := List.mem_map.mp ((mem_mapKeys _ _).mp hk)
  rw [mapGet_of_mem hm (q := e.1) (v := e.2) he, hl]
  exact h e he

example : unmarshalLegacy [] (marshalLegacy [("http://a".toList, ["urn:epc:pat:sscc-96:3.1".toList])]) = ([], false) := by
  decide +kernel

/-! ## C52 -/

/-- Decoding subscriptions into a map gives no error; the written keys have the written patterns and
    the other keys what they had. -/
theorem C52_subscriptions (sub old : Subs) (ho : IsMap old) :
    ∃ r, unmarshalSubs old (marshalSubs sub) = (r, false) ∧ IsMap r ∧
      ∀ q, mapGet r q = (mapGet sub q).or (mapGet old q) := by
  have hl : (mapKeys sub).length = sub.length := by
    unfold mapKeys; rw [length_sortStrings, List.length_map]
  refine ⟨(mapKeys sub).foldl (fun s k => mapSet s k ((mapGet sub k).getD [])) old, ?_,
    foldl_mapSet_isMap _ _ _ ho, fun q => ?_⟩
  · have := unmarshalSubsLoop_marshal sub (mapKeys sub) old
    rw [hl] at this
    simpa [unmarshalSubs, marshalSubs, gobInt] using this
  · rw [foldl_mapSet_get]
    cases hq : mapGet sub q with
    | none => simp [mem_mapKeys, (mapGet_none sub q).mp hq]
    | some v =>
      have : q ∈ mapKeys sub := (mem_mapKeys _ _).mpr (List.mem_map.mpr ⟨(q, v), mapGet_mem hq, rfl⟩)
      simp [this]

example : (unmarshalSubs [("b".toList, ["x".toList]), ("c".toList, ["y".toList])]
    (marshalSubs [("b".toList, ["p".toList, "q".toList]), ("a".toList, [])])) =
    ([("b".toList, ["p".toList, "q".toList]), ("c".toList, ["y".toList]), ("a".toList, [])], false) := by
  decide +kernel

/-- A partial subscription with all its nested subsets comes back unchanged, whatever the order in
    which the maps are written. -/
theorem C52_partial_subscription (p : PSub) (h : p.Maps) : unmarshalPSub p.marshal = (p, false) :=
  unmarshalPSub_marshal p h

example : (PSub.mk 0 "a".toList [("0011".toList, .mk 4 "b".toList [("1".toList, .mk 8 "c".toList [])]),
    ("0000".toList, .mk 4 "d".toList [])]).Maps := by
  simp [PSub.Maps, BSubMaps, IsMap]

/-! ## C66 -/

/-- the name an engine writes first -/
def kindName : EngineKind → Str
  | .list => "Engine:filtering.List".toList
  | .legacy => "Engine:filtering.LegacyEngine".toList
  | .patricia => "Engine:filtering.PatriciaTrie".toList
  | .splay => "Engine:filtering.SplayTree".toList

theorem encoded_head {k : EngineKind} {d : List Tok} (h : Encoded k d) :
    ∃ d', d = .str (kindName k) :: d' := by
  cases k with
  | list => obtain ⟨l, rfl⟩ := h; exact ⟨_, rfl⟩
  | legacy => obtain ⟨l, rfl⟩ := h; exact ⟨_, rfl⟩
  | patricia =>
    obtain ⟨t, h⟩ := h
    unfold marshalPatricia at h
    split at h <;> cases h
    exact ⟨_, rfl⟩
  | splay =>
    obtain ⟨t, h⟩ := h
    unfold marshalSplay at h
    split at h <;> cases h
    exact ⟨_, rfl⟩

/-- A list engine rejects the streams of the other engines and keeps its filters. -/
theorem C66_list (k : EngineKind) (d : List Tok) (h : Encoded k d) (hk : k ≠ .list)
    (old : List (Option FilterObject × Str)) : unmarshalList old d = (old, true) := by
  obtain ⟨d', rfl⟩ := encoded_head h
  unfold unmarshalList
  simp only [gobStr]
  rw [if_pos]
  cases k <;> first | exact absurd rfl hk | decide

/-- A legacy engine rejects the streams of the other engines and keeps its subscriptions. -/
theorem C66_legacy (k : EngineKind) (d : List Tok) (h : Encoded k d) (hk : k ≠ .legacy) (old : Subs) :
    unmarshalLegacy old d = (old, true) := by
  obtain ⟨d', rfl⟩ := encoded_head h
  unfold unmarshalLegacy
  simp only [gobStr]
  rw [if_pos]
  cases k <;> first | exact absurd rfl hk | decide

/-- A Patricia trie rejects the streams of the other engines and stays without root. -/
theorem C66_patricia (k : EngineKind) (d : List Tok) (h : Encoded k d) (hk : k ≠ .patricia) :
    unmarshalPatricia d = (.nil, true) := by
  obtain ⟨d', rfl⟩ := encoded_head h
  unfold unmarshalPatricia
  simp only [gobStr]
  rw [if_pos]
  cases k <;> first | exact absurd rfl hk | decide

/-- A splay tree rejects the streams of the other engines and stays without root. -/
theorem C66_splay (k : EngineKind) (d : List Tok) (h : Encoded k d) (hk : k ≠ .splay) :
    unmarshalSplay d = (.nil, true) := by
  obtain ⟨d', rfl⟩ := encoded_head h
  unfold unmarshalSplay
  simp only [gobStr]
  rw [if_pos]
  cases k <;> first | exact absurd rfl hk | decide

example : Encoded .list (marshalList [(newFilter "0011".toList 0, "a".toList)]) ∧
    unmarshalSplay (marshalList [(newFilter "0011".toList 0, "a".toList)]) = (.nil, true) :=
  ⟨⟨_, rfl⟩, by decide +kernel⟩

end Gosstrak
