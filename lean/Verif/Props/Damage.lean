import Verif.Proofs.Damage
import Verif.Props.Gob

namespace Gosstrak

/-! ## C93 -/

/-- Any stream: a list engine accepts it exactly if it has the name, a number and at least so many URIs
    each followed by a value, of which the last is a filter. -/
theorem C93_list_accepts (old : List (Option FilterObject × Str)) (d : List Tok) :
    (unmarshalList old d).2 = false ↔ ∃ n es rest,
      d = .str "Engine:filtering.List".toList :: .int n :: (listEntries es ++ rest) ∧ es.length = n.toNat ∧
      ∀ e, es.getLast? = some e → ∃ f, e.2 = .filter f := by
  constructor
  · intro h
    unfold unmarshalList at h
    split at h
    · cases h
    rename_i t d1 h1
    split at h
    · cases h
    rename_i ht
    split at h
    · cases h
    rename_i n d2 h2
    have ht : t = "Engine:filtering.List".toList := Classical.not_not.mp ht
    have e1 : d = .str t :: d1 := by unfold gobStr at h1; split at h1 <;> cases h1; rfl
    have e2 : d1 = .int n :: d2 := by unfold gobInt at h2; split at h2 <;> cases h2; rfl
    rcases listLoop_any n.toNat old false d2 with ⟨es, rest, g1, g2⟩ | ⟨g, -⟩
    · refine ⟨n, es, rest, by rw [e1, e2, g1, ht], g2, fun e he => ?_⟩
      rw [g1, ← g2, listLoop_entries es old false rest, he] at h
      obtain ⟨u, t⟩ := e
      cases t <;> first | exact ⟨_, rfl⟩ | cases h
    · rw [g] at h; cases h
  · rintro ⟨n, es, rest, rfl, h2, h3⟩
    have e : unmarshalList old (.str "Engine:filtering.List".toList :: .int n :: (listEntries es ++ rest)) =
        unmarshalListLoop n.toNat old false (listEntries es ++ rest) := by
      simp [unmarshalList, gobStr, gobInt]
    rw [e, ← h2, listLoop_entries]
    cases hl : es.getLast? with
    | none => rfl
    | some e => obtain ⟨f, hf⟩ := h3 e hl; simp [hf, Tok.asFilter]

/-- What it then has: the old entries and the new ones, a nil filter wherever the value was not a filter. -/
theorem C93_list_content (old : List (Option FilterObject × Str)) (n : Int) (es : List (Str × Tok)) (rest : List Tok)
    (hn : es.length = n.toNat) :
    (unmarshalList old (.str "Engine:filtering.List".toList :: .int n :: (listEntries es ++ rest))).1 =
      old ++ es.map fun e => (e.2.asFilter, e.1) := by
  have e : unmarshalList old (.str "Engine:filtering.List".toList :: .int n :: (listEntries es ++ rest)) =
      unmarshalListLoop n.toNat old false (listEntries es ++ rest) := by
    simp [unmarshalList, gobStr, gobInt]
  rw [e, ← hn, listLoop_entries]
  rfl

/-- Such a list answers no search: every search panics. -/
theorem C93_list_panics (tr : Translator) (filters : List (Option FilterObject × Str)) (pc id : List Byte)
    (h : ∃ u, (none, u) ∈ filters) : searchDecodedList tr filters pc id = none := by
  unfold searchDecodedList
  have : (filters.mapM fun em : Option FilterObject × Str => em.1.map fun f => (f, em.2)) = none := by
    obtain ⟨u, hu⟩ := h
    induction filters with
    | nil => cases hu
    | cons e l ih =>
      rw [List.mapM_cons]
      rcases List.mem_cons.mp hu with h | h
      · rw [← h]; rfl
      · rw [ih h]; cases e.1 <;> rfl
  rw [this]

/-- With all filters in place a decoded list answers as the list that was written. -/
theorem C93_list_answers (tr : Translator) (l : ListEngine) (pc id : List Byte) :
    searchDecodedList tr (unmarshalList [] (marshalList l)).1 pc id = l.search tr pc id := by
  rw [C48_round_trip]
  unfold searchDecodedList
  have : (((l.map fun em => (some em.1, em.2))).mapM fun em : Option FilterObject × Str =>
      em.1.map fun f => (f, em.2)) = some l := by
    induction l with
    | nil => rfl
    | cons e l ih => rw [List.map_cons, List.mapM_cons, ih]; rfl
  rw [List.nil_append, this]

-- a value of another type in the middle: no error, and every search panics
example : unmarshalList [] [.str "Engine:filtering.List".toList, .int 2, .str "a".toList, .bool true, .str "b".toList,
      .filter (newFilter "1".toList 0)] = ([(none, "a".toList), (some (newFilter "1".toList 0), "b".toList)], false) ∧
    searchDecodedList (fun _ _ => some ([], false)) [(none, "a".toList), (some (newFilter "1".toList 0), "b".toList)] [] [0xff] =
      none := by
  decide +kernel

/-- The file of a list engine, cut off anywhere: an error; the complete entries before the cut have been added, and
    after a cut behind a URI one with a nil filter. -/
theorem C93_list_cut (old : List (Option FilterObject × Str)) (l : ListEngine) (d : List Tok)
    (h : CutOff d (marshalList l)) : (unmarshalList old d).2 = true ∧
    ∃ k, k ≤ l.length ∧ ((unmarshalList old d).1 = old ++ (l.take k).map (fun em => (some em.1, em.2)) ∨
      ∃ em, l[k]? = some em ∧
        (unmarshalList old d).1 = old ++ (l.take k).map (fun em => (some em.1, em.2)) ++ [(none, em.2)]) := by
  obtain ⟨more, hm, hd⟩ := h
  have hent : ∀ l : ListEngine, (l.flatMap fun em => [Tok.str em.2, Tok.filter em.1]) =
      listEntries (l.map fun em => (em.2, Tok.filter em.1)) := by
    intro l
    unfold listEntries
    rw [List.flatMap_map]
  unfold marshalList at hd
  rw [hent] at hd
  match d with
  | [] => exact ⟨rfl, 0, Nat.zero_le _, Or.inl (by simp [unmarshalList, gobStr])⟩
  | [t] =>
    simp only [List.cons_append, List.nil_append, List.cons.injEq] at hd
    rw [hd.1]
    exact ⟨rfl, 0, Nat.zero_le _, Or.inl (by simp [unmarshalList, gobStr, gobInt])⟩
  | t :: t' :: d =>
    simp only [List.cons_append, List.nil_append, List.cons.injEq] at hd
    obtain ⟨rfl, rfl, hd⟩ := hd
    have e : unmarshalList old (.str "Engine:filtering.List".toList :: .int l.length :: d) =
        unmarshalListLoop l.length old false d := by
      simp [unmarshalList, gobStr, gobInt]
    rw [e]
    have hlen := congrArg List.length hd
    rw [List.length_append, length_listEntries, List.length_map] at hlen
    have hpos := List.length_pos_iff.mpr hm
    rcases listLoop_any l.length old false d with ⟨es, rest, g1, g2⟩ | ⟨g1, es, g2, ⟨r, g3⟩, g4⟩
    · exfalso
      rw [g1, List.length_append, length_listEntries, g2] at hlen
      omega
    · refine ⟨g1, es.length, by omega, ?_⟩
      have key : ∀ (es : List (Str × Tok)) (l : ListEngine) (r : List Tok), es.length ≤ l.length →
          listEntries es ++ r = listEntries (l.map fun em => (em.2, Tok.filter em.1)) →
          decodedEntries es = (l.take es.length).map (fun em => (some em.1, em.2)) ∧
            ∀ u r', r = .str u :: r' → ∃ em, l[es.length]? = some em ∧ em.2 = u := by
        intro es
        induction es with
        | nil =>
          intro l r _ h
          refine ⟨rfl, fun u r' hr => ?_⟩
          cases l with
          | nil => rw [hr] at h; cases h
          | cons em l =>
            rw [hr] at h
            have h : Tok.str u :: r' = Tok.str em.2 :: Tok.filter em.1 :: listEntries (l.map fun em => (em.2, Tok.filter em.1)) := h
            simp only [List.cons.injEq, Tok.str.injEq] at h
            exact ⟨em, rfl, h.1.symm⟩
        | cons e es ih =>
          intro l r hl h
          cases l with
          | nil => cases hl
          | cons em l =>
            obtain ⟨u, t⟩ := e
            have h : Tok.str u :: t :: (listEntries es ++ r) =
              Tok.str em.2 :: Tok.filter em.1 :: listEntries (l.map fun em => (em.2, Tok.filter em.1)) := h
            simp only [List.cons.injEq, Tok.str.injEq] at h
            obtain ⟨rfl, rfl, h'⟩ := h
            obtain ⟨i1, i2⟩ := ih l r (by simpa using hl) h'
            refine ⟨?_, fun u r' hr => ?_⟩
            · simp only [decodedEntries, List.map_cons, List.length_cons, List.take_succ_cons] at i1 ⊢
              rw [i1]
              rfl
            · simpa using i2 u r' hr
      obtain ⟨k1, k2⟩ := key es l (r ++ more) (by omega) (by rw [← List.append_assoc, g3, hd])
      rcases g4 with g4 | ⟨u, g4, g5⟩
      · exact Or.inl (by rw [g4, k1])
      · have hr : r = [.str u] := by rw [g4] at g3; exact List.append_cancel_left g3
        obtain ⟨em, m1, m2⟩ := k2 u more (by rw [hr]; rfl)
        exact Or.inr ⟨em, m1, by rw [g5, k1, m2]⟩

example : unmarshalList [] ((marshalList [(newFilter "0011".toList 0, "a".toList), (newFilter "1".toList 0, "b".toList)]).take 5) =
    ([(some (newFilter "0011".toList 0), "a".toList), (none, "b".toList)], true) := by
  decide +kernel

/-- Any stream: subscriptions are accepted exactly if it has a number and at least so many entries. -/
theorem C93_subs_accepts (old : Subs) (d : List Tok) :
    (unmarshalSubs old d).2 = false ↔ ∃ n es d' rest, d = .int n :: (d' ++ rest) ∧ SubsEntries es d' ∧
      es.length = n.toNat := by
  constructor
  · intro h
    unfold unmarshalSubs at h
    split at h
    · cases h
    rename_i n d1 h1
    have e1 : d = .int n :: d1 := by unfold gobInt at h1; split at h1 <;> cases h1; rfl
    rcases subsLoop_any n.toNat old d1 with ⟨es, d', rest, g1, g2, g3⟩ | ⟨es, d', -, -, -, g⟩
    · exact ⟨n, es, d', rest, by rw [e1, g1], g2, g3⟩
    · rw [g] at h; cases h
  · rintro ⟨n, es, d', rest, rfl, h2, h3⟩
    have e : unmarshalSubs old (.int n :: (d' ++ rest)) = unmarshalSubsLoop n.toNat old (d' ++ rest) := rfl
    rw [e, ← h3, subsLoop_entries h2]

/-- Then the entries have been stored one after the other. -/
theorem C93_subs_content (old : Subs) (n : Int) (es : List (Str × List Str)) (d' rest : List Tok)
    (h : SubsEntries es d') (hn : es.length = n.toNat) :
    (unmarshalSubs old (.int n :: (d' ++ rest))).1 = es.foldl (fun s e => mapSet s e.1 e.2) old := by
  have e : unmarshalSubs old (.int n :: (d' ++ rest)) = unmarshalSubsLoop n.toNat old (d' ++ rest) := rfl
  rw [e, ← hn, subsLoop_entries h]
  rfl

-- a negative length and a key that comes twice
example : unmarshalSubs [] [.int 2, .str "a".toList, .int (-1), .str "a".toList, .int 1, .str "p".toList, .bool true] =
    ([("a".toList, ["p".toList])], false) := by
  decide +kernel

/-- The file of subscriptions, cut off anywhere: an error; the complete entries before the cut have been stored. -/
theorem C93_subs_cut (old sub : Subs) (d : List Tok) (h : CutOff d (marshalSubs sub)) :
    (unmarshalSubs old d).2 = true ∧ ∃ k, k < max 1 sub.length ∧ (unmarshalSubs old d).1 =
      ((mapKeys sub).take k).foldl (fun s key => mapSet s key ((mapGet sub key).getD [])) old := by
  obtain ⟨more, hm, hd⟩ := h
  unfold marshalSubs at hd
  match d with
  | [] => exact ⟨rfl, 0, by omega, rfl⟩
  | t :: d =>
    simp only [List.cons_append, List.nil_append, List.cons.injEq] at hd
    obtain ⟨rfl, hd⟩ := hd
    have hl : (mapKeys sub).length = sub.length := by
      unfold mapKeys; rw [length_sortStrings, List.length_map]
    have e : unmarshalSubs old (.int sub.length :: d) = unmarshalSubsLoop sub.length old d := rfl
    rw [e]
    have full := marshal_entries sub (mapKeys sub)
    have hd : d ++ more = (mapKeys sub).flatMap fun fs => [Tok.str fs, Tok.int ((mapGet sub fs).getD []).length] ++
        ((mapGet sub fs).getD []).map Tok.str := hd
    rw [← hd] at full
    rcases subsLoop_any sub.length old d with ⟨es, d', rest, g1, g2, g3⟩ | ⟨es, d', ⟨r, g1⟩, g2, g3, g4⟩
    · exfalso
      obtain ⟨-, -, hr⟩ := subsEntries_unique (r := rest ++ more) (r' := []) g2 full (by rw [g3, List.length_map, hl])
        (by rw [g1]; simp)
      exact hm (List.append_eq_nil_iff.mp hr).2
    · rw [g4]
      refine ⟨rfl, es.length, by omega, ?_⟩
      have hsplit := marshal_entries sub ((mapKeys sub).take es.length)
      have happ : (((mapKeys sub).take es.length).flatMap fun fs =>
            [Tok.str fs, Tok.int ((mapGet sub fs).getD []).length] ++ ((mapGet sub fs).getD []).map Tok.str) ++
          (((mapKeys sub).drop es.length).flatMap fun fs =>
            [Tok.str fs, Tok.int ((mapGet sub fs).getD []).length] ++ ((mapGet sub fs).getD []).map Tok.str) = d ++ more := by
        rw [hd, ← List.flatMap_append, List.take_append_drop]
      obtain ⟨he, -, -⟩ := subsEntries_unique (r := r ++ more) g2 hsplit
        (by rw [List.length_map, List.length_take, hl]; omega)
        (by rw [happ, ← g1]; simp)
      show es.foldl _ old = _
      rw [← List.foldl_map (f := fun k => (k, (mapGet sub k).getD [])) (g := fun s (e : Str × List Str) => mapSet s e.1 e.2),
        ← he]

example : unmarshalSubs [] ((marshalSubs [("a".toList, ["p".toList]), ("b".toList, ["q".toList, "r".toList])]).take 6) =
    ([("a".toList, ["p".toList])], true) := by
  decide +kernel

/-- A partial subscription whose stream is cut off, or that of a nested one at any depth: an error. -/
theorem C93_psub_cut {p : PSub} {d : List Tok} (h : PSubCut p d) : (unmarshalPSub d).2 = true := by
  induction h with
  | here h => exact psub_cut_here _ h
  | @inside o u k before after p d _ ih =>
    rw [unmarshalPSub]
    simp only [gobInt, gobStr, gobMap]
    obtain ⟨t, ht⟩ := bsub_before before [] ((k, d) :: marshalBSub after)
    rw [ht, unmarshalBSub, if_pos ih]

/-- Then those before it, in the order of the stream, have been stored, the damaged one and the rest not. -/
theorem C93_psub_content {o : Nat} {u k : Str} {before after : List (Str × PSub)} {p : PSub} {d : List Tok}
    (h : PSubCut p d) (hm : (PSub.mk o u before).Maps) :
    unmarshalPSub [.int o, .str u, .map (marshalBSub before ++ (k, d) :: marshalBSub after)] =
      (.mk o u before, true) := by
  rw [unmarshalPSub]
  simp only [gobInt, gobStr, gobMap, Int.toNat_natCast]
  unfold PSub.Maps at hm
  rw [bsub_before_maps before [] _ hm.2 hm.1, unmarshalBSub, if_pos (C93_psub_cut h)]
  rfl

example : PSubCut (.mk 0 "u".toList [("0".toList, .mk 1 "a".toList []), ("1".toList, .mk 1 "b".toList [])])
      [.int 0, .str "u".toList, .map [("0".toList, [.int 1, .str "a".toList, .map []]), ("1".toList, [.int 1])]] ∧
    unmarshalPSub [.int 0, .str "u".toList,
        .map [("0".toList, [.int 1, .str "a".toList, .map []]), ("1".toList, [.int 1])]] =
      (.mk 0 "u".toList [("0".toList, .mk 1 "a".toList [])], true) := by
  have h : PSubCut (.mk 1 "b".toList []) [.int 1] :=
    .here ⟨[.str "b".toList, .map []], by simp, rfl⟩
  exact ⟨.inside (before := [("0".toList, .mk 1 "a".toList [])]) (after := []) h,
    C93_psub_content (before := [("0".toList, .mk 1 "a".toList [])]) (after := []) h
      (by simp [PSub.Maps, BSubMaps, IsMap])⟩

/-- The file of a splay tree, cut off anywhere: an error, and no root. -/
theorem C93_splay_file (t : SNode) (full d : List Tok) (hf : marshalSplay t = some full) (h : CutOff d full) :
    unmarshalSplay d = (.nil, true) := by
  unfold marshalSplay at hf
  split at hf
  · cases hf
  cases hf
  obtain ⟨k, hk, rfl⟩ := cut_take h
  simp only [List.length_cons, List.length_nil] at hk
  interval_cases k
  · rfl
  · simp [unmarshalSplay, gobStr, gobBin]

/-- The stream of a node of it, cut off: an error. -/
theorem C93_splay_cut (t : SNode) (d : List Tok) (h : CutOff d t.marshal) : (unmarshalSNode d).2 = true :=
  snode_cut t h

/-- A node in the stream of whose match branch is anything at all: its decoding is as if the branch were fine, and
    the error of the branch is lost. -/
theorem C93_splay_match (u : Str) (f : Option FilterObject) (mm : SNode) (i : List Tok) :
    unmarshalSNode ([.str u, .bool f.isSome] ++ (match f with | some f => [.filter f] | none => []) ++
        [.bool true, .bin i] ++ [.bool (decide (mm ≠ .nil))] ++ (if mm ≠ .nil then [.bin mm.marshal] else [])) =
      (.node u f (unmarshalSNode i).1 mm, false) := by
  have e : unmarshalSNode ([.str u, .bool f.isSome] ++ (match f with | some f => [.filter f] | none => []) ++
        [.bool true, .bin i] ++ [.bool (decide (mm ≠ .nil))] ++ (if mm ≠ .nil then [.bin mm.marshal] else [])) =
      (.node u f (unmarshalSNode i).1 (if mm = .nil then .nil else (unmarshalSNode mm.marshal).1),
        if mm = .nil then false else (unmarshalSNode mm.marshal).2) := by
    by_cases h2 : mm = .nil <;> cases f <;>
      simp only [h2, ne_eq, not_true, not_false_eq_true, decide_true, decide_false, if_true, if_false,
        List.cons_append, List.nil_append, Option.isSome] <;>
      rw [unmarshalSNode] <;> rfl
  rw [e]
  by_cases h2 : mm = .nil
  · simp [h2]
  · simp [h2, unmarshalSNode_marshal mm h2]

-- a match branch of which only the URI is left: it has lost its filter, and there is no error
example : CutOff [.str "b".toList] (SNode.node "b".toList (some (newFilter "0011".toList 4)) .nil .nil).marshal ∧
    unmarshalSNode [.str "a".toList, .bool true, .filter (newFilter "0011".toList 0), .bool true, .bin [.str "b".toList],
      .bool false] = (.node "a".toList (some (newFilter "0011".toList 0)) (.node "b".toList none .nil .nil) .nil, false) :=
  ⟨⟨[.bool true, .filter (newFilter "0011".toList 4), .bool false, .bool false], by simp, rfl⟩, by decide +kernel⟩

/-- The stream of a node whose mismatch branch gives an error: the same error. -/
theorem C93_splay_mismatch (u : Str) (f : Option FilterObject) (m : SNode) (i : List Tok) :
    unmarshalSNode ([.str u, .bool f.isSome] ++ (match f with | some f => [.filter f] | none => []) ++
        [.bool (decide (m ≠ .nil))] ++ (if m ≠ .nil then [.bin m.marshal] else []) ++ [.bool true, .bin i]) =
      (.node u f m (unmarshalSNode i).1, (unmarshalSNode i).2) := by
  have e : unmarshalSNode ([.str u, .bool f.isSome] ++ (match f with | some f => [.filter f] | none => []) ++
        [.bool (decide (m ≠ .nil))] ++ (if m ≠ .nil then [.bin m.marshal] else []) ++ [.bool true, .bin i]) =
      (.node u f (if m = .nil then .nil else (unmarshalSNode m.marshal).1) (unmarshalSNode i).1,
        (unmarshalSNode i).2) := by
    by_cases h2 : m = .nil <;> cases f <;>
      simp only [h2, ne_eq, not_true, not_false_eq_true, decide_true, decide_false, if_true, if_false,
        List.cons_append, List.nil_append, Option.isSome] <;>
      rw [unmarshalSNode] <;> rfl
  rw [e]
  by_cases h2 : m = .nil
  · simp [h2]
  · simp [h2, unmarshalSNode_marshal m h2]

/-- A node of which not even the URI can be read is empty. -/
theorem C93_splay_empty (d : List Tok) (h : ∀ u d', d ≠ .str u :: d') :
    unmarshalSNode d = (.node [] none .nil .nil, true) := by
  match d with
  | [] => rw [unmarshalSNode]; rfl
  | .str u :: d => exact absurd rfl (h u d)
  | .int _ :: d | .bool _ :: d | .filter _ :: d | .bin _ :: d | .map _ :: d => rw [unmarshalSNode]; rfl

/-- The file of a Patricia trie, cut off anywhere: an error, and no root. -/
theorem C93_patricia_file (t : PNode) (full d : List Tok) (hf : marshalPatricia t = some full) (h : CutOff d full) :
    unmarshalPatricia d = (.nil, true) := by
  unfold marshalPatricia at hf
  split at hf
  · cases hf
  cases hf
  obtain ⟨k, hk, rfl⟩ := cut_take h
  simp only [List.length_cons, List.length_nil] at hk
  interval_cases k
  · rfl
  · simp [unmarshalPatricia, gobStr, gobBin]

/-- The stream of a node of a trie in which every node has both children or none, cut off: an error. -/
theorem C93_patricia_cut (t : PNode) (hf : t.Full) (d : List Tok) (h : CutOff d t.marshal) :
    (unmarshalPNode d).2 = true :=
  pnode_cut t hf h

/-- The stream of a node with only a zero child can be cut off before the child without an error. -/
theorem C93_patricia_silent (u : Str) (f : FilterObject) (zero : PNode) (hz : zero ≠ .nil) :
    ∃ d, CutOff d (PNode.node u f .nil zero).marshal ∧ unmarshalPNode d = (.node u (some f) .nil .nil, false) := by
  refine ⟨[.str u, .bool true, .filter f, .bool false, .bool true], ⟨[.bin zero.marshal], by simp, ?_⟩, ?_⟩
  · rw [PNode.marshal]; simp [hz]
  · rw [unmarshalPNode]; rfl

/-- The one branch of a node can be anything at all: its error is lost. -/
theorem C93_patricia_one (u : Str) (f : FilterObject) (zero : PNode) (hz : zero ≠ .nil) (i : List Tok) :
    unmarshalPNode [.str u, .bool true, .filter f, .bool true, .bin i, .bool true, .bin zero.marshal] =
      (.node u (some f) (unmarshalPNode i).1 zero.prune.raw, (unmarshalPNode zero.marshal).2) := by
  rw [← unmarshalPNode_fst zero hz]
  rw [unmarshalPNode]
  rfl

example : CutOff [.str "b".toList] (PNode.node "b".toList (newFilter "11".toList 2) .nil .nil).marshal ∧
    unmarshalPNode [.str [], .bool true, .filter (newFilter "00".toList 0), .bool true, .bin [.str "b".toList],
      .bool true, .bin (PNode.node "c".toList (newFilter "00".toList 2) .nil .nil).marshal] =
      (.node [] (some (newFilter "00".toList 0)) (.node "b".toList none .nil .nil)
        (.node "c".toList (some (newFilter "00".toList 2)) .nil .nil), false) :=
  ⟨⟨[.bool true, .filter (newFilter "11".toList 2), .bool false, .bool false], by simp, rfl⟩, by decide +kernel⟩

/-- The file of a legacy engine in which each of `n` subscribers has `n` patterns, cut off anywhere: an error. -/
theorem C93_legacy_cut (sub old : Subs) (hm : IsMap sub) (h : ∀ e ∈ sub, e.2.length = sub.length) (d : List Tok)
    (hc : CutOff d (marshalLegacy sub)) : (unmarshalLegacy old d).2 = true := by
  obtain ⟨more, hmore, hd⟩ := hc
  have hl : (mapKeys sub).length = sub.length := by
    unfold mapKeys; rw [length_sortStrings, List.length_map]
  have hlen := congrArg List.length hd
  unfold marshalLegacy at hd hlen
  rw [List.length_append, List.length_append, length_legacyTokens, sum_keys List.length [] sub hm, hl] at hlen
  have hsum : (sub.map fun e => e.2.length).sum = sub.length * sub.length := by
    have : sub.map (fun e => e.2.length) = List.replicate sub.length sub.length := by
      rw [List.eq_replicate_iff]
      refine ⟨by simp, fun b hb => ?_⟩
      obtain ⟨e, he, rfl⟩ := List.mem_map.mp hb
      exact h e he
    rw [this, List.sum_replicate_nat]
  have hpos := List.length_pos_iff.mpr hmore
  match d with
  | [] => rfl
  | [t] =>
    simp only [List.cons_append, List.nil_append, List.cons.injEq] at hd
    rw [hd.1]
    rfl
  | t :: t' :: d =>
    simp only [List.cons_append, List.nil_append, List.cons.injEq] at hd
    obtain ⟨rfl, rfl, hd⟩ := hd
    have e : unmarshalLegacy old (.str "Engine:filtering.LegacyEngine".toList :: .int (mapKeys sub).length :: d) =
        unmarshalLegacyLoop sub.length sub.length old false d := by
      simp [unmarshalLegacy, gobStr, gobInt, hl]
    rw [e]
    cases he : (unmarshalLegacyLoop sub.length sub.length old false d).2 with
    | true => rfl
    | false =>
      exfalso
      simp only [List.length_cons, List.length_nil] at hlen
      by_cases hn : sub.length = 0
      · rw [hsum, hn] at hlen; omega
      · have := legacyLoop_ok _ hn _ _ _ _ hn he
        rw [Nat.mul_add] at this
        rw [hsum] at hlen
        omega

/-- That of one subscriber with several patterns can be cut off anywhere behind the first pattern without an error. -/
theorem C93_legacy_silent (old : Subs) (f p : Str) (ps : List Str) (k : Nat) (hk : k < ps.length) :
    ∃ d, d = (marshalLegacy [(f, p :: ps)]).take (k + 5) ∧ CutOff d (marshalLegacy [(f, p :: ps)]) ∧
      unmarshalLegacy old d = (old, false) := by
  have e : marshalLegacy [(f, p :: ps)] = .str "Engine:filtering.LegacyEngine".toList :: .int 1 :: .str f ::
      .int (p :: ps).length :: .str p :: ps.map .str := by
    simp [marshalLegacy, mapKeys, sortStrings, insertSorted, mapGet]
  refine ⟨_, rfl, ⟨(marshalLegacy [(f, p :: ps)]).drop (k + 5), ?_, List.take_append_drop _ _⟩, ?_⟩
  · rw [e]
    simp only [List.drop_succ_cons, ne_eq, List.drop_eq_nil_iff, List.length_map]
    omega
  · rw [e]
    rfl

example : unmarshalLegacy [] ((marshalLegacy [("http://a".toList, ["p".toList, "q".toList])]).take 5) = ([], false) := by
  decide +kernel

end Gosstrak
