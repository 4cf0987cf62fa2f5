import Verif.Proofs.Reload
import Verif.Props.Gob
import Verif.Spec.Damage

namespace Gosstrak

/-! ## C106 -/

/-- Loading into an engine without root is what C49, C50, C66 and C93 are about, whatever the stream. -/
theorem C106_fresh (d : List Tok) :
    unmarshalSplayOver .nil d = unmarshalSplay d ∧ unmarshalPatriciaOver .nil d = unmarshalPatricia d := by
  unfold unmarshalSplayOver unmarshalSplay unmarshalPatriciaOver unmarshalPatricia
  simp only [snodeOver_nil, pnodeOver_nil]
  exact ⟨rfl, rfl⟩

theorem splay_file {t : SNode} {d : List Tok} (h : marshalSplay t = some d) (old : SNode) :
    unmarshalSplayOver old d = (old.onto t, false) := by
  unfold marshalSplay at h
  split at h
  · cases h
  · rename_i hn
    cases h
    rw [← snodeOver_marshal t hn old]
    simp [unmarshalSplayOver, gobStr, gobBin]

theorem patricia_file {t : PNode} {d : List Tok} (h : marshalPatricia t = some d) (old : PRaw) :
    (unmarshalPatriciaOver old d).1 = old.onto t ∧ (unmarshalPatriciaOver old d).2 = (unmarshalPatricia d).2 := by
  unfold marshalPatricia at h
  split at h
  · cases h
  · rename_i hn
    cases h
    rw [← pnodeOver_fst t hn old]
    have := pnodeOver_snd t hn old
    simpa [unmarshalPatriciaOver, unmarshalPatricia, gobStr, gobBin] using this

/-- Loading a saved splay tree gives no error. The tree has the places and URIs of the saved one; its filters
    are those of the saved one but for fields that are zero there, which stay as they were at the same place. -/
theorem C106_splay (t old : SNode) (d : List Tok) (h : marshalSplay t = some d) :
    ∃ r, unmarshalSplayOver old d = (r, false) ∧ ∀ p,
      (t.place p = none → r.place p = none) ∧
      ∀ u f, t.place p = some (u, f) → ∃ g, r.place p = some (u, g) ∧ Loaded ((old.place p).bind Prod.snd) f g := by
  refine ⟨_, splay_file h old, fun p => ?_⟩
  rw [onto_place]
  refine ⟨fun e => by rw [e]; rfl, fun u f e => ?_⟩
  rw [e]
  exact ⟨_, rfl, overFilter_loaded _ _⟩

/-- So the tree is the saved one exactly if nothing of the old filters is left over. -/
theorem C106_splay_equal (t old : SNode) (d : List Tok) (h : marshalSplay t = some d) :
    unmarshalSplayOver old d = (t, false) ↔
      ∀ p u f, t.place p = some (u, f) → Loaded ((old.place p).bind Prod.snd) f f := by
  rw [splay_file h, Prod.mk.injEq, onto_eq_iff]
  simp

/-- With filters made by `NewFilter`: exactly if at every place that both trees have, an offset of zero was
    zero, an offset in the first byte was there, and an empty string was empty. -/
theorem C106_splay_made (t old : SNode) (ht : t.Made) (ho : old.Made) (d : List Tok) (h : marshalSplay t = some d) :
    unmarshalSplayOver old d = (t, false) ↔
      ∀ p u s o u' s' o', IsFilterStr s → t.place p = some (u, some (newFilter s o)) →
        old.place p = some (u', some (newFilter s' o')) → NothingLeft s o s' o' := by
  rw [C106_splay_equal t old d h]
  constructor
  · intro H p u s o u' s' o' hs hp hq
    have := H p u _ hp
    rw [hq] at this
    exact (loaded_made hs o s' o').mp this
  · intro H p u f hp
    obtain ⟨s, o, hs, rfl⟩ := ht p u f hp
    cases hq : old.place p with
    | none => exact .fresh _
    | some e =>
      obtain ⟨s', o', -, he⟩ := ho p e.1 e.2 hq
      have hq' : old.place p = some (e.1, some (newFilter s' o')) := by rw [hq, ← he]
      rw [Option.bind_some, he]
      exact (loaded_made hs o s' o').mpr (H p u s o e.1 s' o' hs hp hq')

-- trees that meet the hypotheses, with nothing left over and with something left over
example :
    let a := SNode.node "a".toList (some (newFilter "0011".toList 0)) .nil .nil
    let b := SNode.node "b".toList (some (newFilter "0".toList 9)) a a
    a.Made ∧ b.Made ∧ (marshalSplay b).map (unmarshalSplayOver a) = some (b, false) ∧
      (marshalSplay a).map (unmarshalSplayOver b) ≠ some (a, false) := by
  have ha : SNode.Made (.node "a".toList (some (newFilter "0011".toList 0)) .nil .nil) := by
    intro p u f h
    match p with
    | [] => simp only [SNode.place, Option.some.injEq, Prod.mk.injEq] at h; exact ⟨_, _, by decide +kernel, h.2.symm⟩
    | true :: _ => simp [SNode.place] at h
    | false :: _ => simp [SNode.place] at h
  refine ⟨ha, ?_, by decide +kernel, by decide +kernel⟩
  intro p u f h
  match p with
  | [] => simp only [SNode.place, Option.some.injEq, Prod.mk.injEq] at h; exact ⟨_, _, by decide +kernel, h.2.symm⟩
  | true :: p => exact ha p u f h
  | false :: p => exact ha p u f h

/-- An engine that loads what it has saved itself does not change; and loading a second time changes nothing more,
    so what is left over stays. -/
theorem C106_splay_again (t old : SNode) (d : List Tok) (h : marshalSplay t = some d) :
    unmarshalSplayOver t d = (t, false) ∧
      unmarshalSplayOver (unmarshalSplayOver old d).1 d = unmarshalSplayOver old d := by
  constructor
  · rw [C106_splay_equal t t d h]
    intro p u f hp
    rw [hp, Option.bind_some, ← overFilter_eq_iff, overFilter_self]
  · rw [splay_file h, splay_file h, onto_onto]

/-- Two trees made by the constructor: after loading the second, the first misses a tag that the second reports
    and reports one that the second does not. -/
theorem C106_splay_wrong :
    ∃ old t r d, newSplayFrom [("00110011".toList, "a".toList), ("001100110011".toList, "b".toList)] = some old ∧
      newSplayFrom [("0011".toList, "a".toList), ("00110011".toList, "b".toList)] = some t ∧
      marshalSplay t = some d ∧ unmarshalSplayOver old d = (r, false) ∧
      (t.search [0x33#8, 0x00#8]).map Prod.fst = some ["a".toList, "b".toList] ∧
      (r.search [0x33#8, 0x00#8]).map Prod.fst = some ["a".toList] ∧
      (t.search [0x30#8, 0x03#8]).map Prod.fst = some ["a".toList] ∧
      (r.search [0x30#8, 0x03#8]).map Prod.fst = some ["a".toList, "b".toList] := by
  refine ⟨.node "a".toList (some (newFilter "00110011".toList 0))
      (.node "b".toList (some (newFilter "0011".toList 8)) .nil .nil) .nil,
    .node "a".toList (some (newFilter "0011".toList 0))
      (.node "b".toList (some (newFilter "0011".toList 4)) .nil .nil) .nil,
    .node "a".toList (some (newFilter "0011".toList 0))
      (.node "b".toList (some { newFilter "0011".toList 4 with byteOffset := 1 }) .nil .nil) .nil,
    _, by decide +kernel, by decide +kernel, rfl, ?_⟩
  decide +kernel

/-- Loading a saved Patricia trie gives an error exactly when loading it into a new one does (C50). -/
theorem C106_patricia_error (t : PNode) (old : PRaw) (d : List Tok) (h : marshalPatricia t = some d) :
    (unmarshalPatriciaOver old d).2 = (unmarshalPatricia d).2 :=
  (patricia_file h old).2

/-- If every node of the saved trie has both children or none, only fields of filters are left over, as for the
    splay tree. -/
theorem C106_patricia_full (t : PNode) (hf : t.Full) (old : PRaw) (d : List Tok) (h : marshalPatricia t = some d) :
    ∃ r, unmarshalPatriciaOver old d = (r, false) ∧ ∀ p,
      (t.raw.place p = none → r.place p = none) ∧
      ∀ u f, t.raw.place p = some (u, f) →
        ∃ g, r.place p = some (u, g) ∧ Loaded ((old.place p).bind Prod.snd) f g := by
  obtain ⟨h1, h2⟩ := patricia_file h old
  have hn : t ≠ .nil := by rintro rfl; simp [marshalPatricia] at h
  obtain ⟨d', h3, h4⟩ := C50_full t hn hf
  rw [h] at h3
  cases h3
  rw [h4] at h2
  refine ⟨old.onto t, Prod.ext h1 h2, fun p => ?_⟩
  rw [praw_onto_full t old p hf]
  refine ⟨fun e => by rw [e]; rfl, fun u f e => ?_⟩
  rw [e]
  exact ⟨_, rfl, overFilter_loaded _ _⟩

/-- The trie is the saved one exactly if the saved one has no zero branch without a sibling, nothing of the old
    filters is left over, and where the saved one has only a branch for one the old one had none for zero. -/
theorem C106_patricia_equal (t : PNode) (old : PRaw) (d : List Tok) (h : marshalPatricia t = some d) :
    (unmarshalPatriciaOver old d).1 = t.raw ↔
      ¬ t.HasLoneZero ∧
      (∀ p u f, t.raw.place p = some (u, f) → Loaded ((old.place p).bind Prod.snd) f f) ∧
      ∀ p, (t.raw.place (p ++ [true])).isSome = true → t.raw.place (p ++ [false]) = none →
        old.place (p ++ [false]) = none := by
  rw [(patricia_file h old).1, praw_onto_eq_iff]

/-- With filters made by `NewFilter`, the second condition is that of the splay tree. -/
theorem C106_patricia_made (t : PNode) (old : PRaw) (ht : t.raw.Made) (ho : old.Made) :
    (∀ p u f, t.raw.place p = some (u, f) → Loaded ((old.place p).bind Prod.snd) f f) ↔
      ∀ p u s o u' s' o', IsFilterStr s → t.raw.place p = some (u, some (newFilter s o)) →
        old.place p = some (u', some (newFilter s' o')) → NothingLeft s o s' o' := by
  constructor
  · intro H p u s o u' s' o' hs hp hq
    have := H p u _ hp
    rw [hq] at this
    exact (loaded_made hs o s' o').mp this
  · intro H p u f hp
    obtain ⟨s, o, hs, rfl⟩ := ht p u f hp
    cases hq : old.place p with
    | none => exact .fresh _
    | some e =>
      obtain ⟨s', o', -, he⟩ := ho p e.1 e.2 hq
      have hq' : old.place p = some (e.1, some (newFilter s' o')) := by rw [hq, ← he]
      rw [Option.bind_some, he]
      exact (loaded_made hs o s' o').mpr (H p u s o e.1 s' o' hs hp hq')

/-- Loading a second time changes nothing more. -/
theorem C106_patricia_again (t : PNode) (old : PRaw) (d : List Tok) (h : marshalPatricia t = some d) :
    (unmarshalPatriciaOver (unmarshalPatriciaOver old d).1 d).1 = (unmarshalPatriciaOver old d).1 := by
  rw [(patricia_file h _).1, (patricia_file h _).1, praw_onto_onto]

/-- Two tries made by the constructor: after loading the second without an error, the first still reports to an
    address that the second does not know. -/
theorem C106_patricia_stays :
    let old := newPatriciaFrom [("0".toList, "a".toList), ("11".toList, "b".toList), ("111".toList, "c".toList),
      ("110".toList, "d".toList)]
    let t := newPatriciaFrom [("0".toList, "a".toList), ("11".toList, "b".toList), ("111".toList, "c".toList)]
    ∃ d, marshalPatricia t = some d ∧ unmarshalPatriciaOver old.raw d = (old.raw, false) ∧
      t.search [0xC0#8] = some ["b".toList] ∧ old.search [0xC0#8] = some ["b".toList, "d".toList] := by
  refine ⟨_, rfl, ?_⟩
  decide +kernel

/-- Two tries made by the constructor, all of whose nodes have both children or none: after loading the second
    without an error, the first misses a tag that the second reports, as it looks at a later bit. -/
theorem C106_patricia_wrong :
    let old := newPatriciaFrom [("0011".toList, "a".toList), ("0000".toList, "b".toList)]
    let t := newPatriciaFrom [("0011".toList, "a".toList), ("1100".toList, "b".toList)]
    ∃ d r, t.Full ∧ marshalPatricia t = some d ∧ unmarshalPatriciaOver old.raw d = (PNode.raw r, false) ∧
      t.search [0x30#8] = some ["a".toList] ∧ r.search [0x30#8] = some [] := by
  intro old t
  refine ⟨_, .node [] { newFilter [] 0 with str := "00".toList, size := 2 }
      (.node "b".toList { newFilter "1100".toList 0 with offset := 2 } .nil .nil)
      (.node "a".toList { newFilter "0011".toList 0 with offset := 2 } .nil .nil), ?_, rfl, ?_⟩
  · rw [show t = .node [] (newFilter [] 0) (.node "b".toList (newFilter "1100".toList 0) .nil .nil)
      (.node "a".toList (newFilter "0011".toList 0) .nil .nil) by decide +kernel]
    simp [PNode.Full]
  · decide +kernel

/-- What another kind of engine has saved is refused, and nothing changes. -/
theorem C106_other_kind (k : EngineKind) (d : List Tok) (h : Encoded k d) :
    (k ≠ .splay → ∀ old, unmarshalSplayOver old d = (old, true)) ∧
      (k ≠ .patricia → ∀ old, unmarshalPatriciaOver old d = (old, true)) := by
  obtain ⟨d', rfl⟩ := encoded_head h
  constructor <;> intro hk old
  · unfold unmarshalSplayOver
    simp only [gobStr]
    rw [if_pos]
    cases k <;> first | exact absurd rfl hk | decide
  · unfold unmarshalPatriciaOver
    simp only [gobStr]
    rw [if_pos]
    cases k <;> first | exact absurd rfl hk | decide

example : Encoded .list (marshalList [(newFilter "0011".toList 0, "a".toList)]) := ⟨_, rfl⟩

/-- So is a file of which the end is missing. -/
theorem C106_cut (d full : List Tok) (hc : CutOff d full) :
    (∀ t old, marshalSplay t = some full → unmarshalSplayOver old d = (old, true)) ∧
      ∀ t old, marshalPatricia t = some full → unmarshalPatriciaOver old d = (old, true) := by
  obtain ⟨more, hm, he⟩ := hc
  constructor <;> intro t old h
  · unfold marshalSplay at h
    split at h
    · cases h
    · rw [← Option.some.inj h] at he
      match d, he with
      | [], _ => rfl
      | [_], he => simp only [List.cons_append, List.cons.injEq] at he; rw [he.1]; rfl
      | _ :: _ :: d, he =>
        simp only [List.cons_append, List.cons.injEq, List.append_eq_nil_iff] at he
        exact absurd he.2.2.2 hm
  · unfold marshalPatricia at h
    split at h
    · cases h
    · rw [← Option.some.inj h] at he
      match d, he with
      | [], _ => rfl
      | [_], he => simp only [List.cons_append, List.cons.injEq] at he; rw [he.1]; rfl
      | _ :: _ :: d, he =>
        simp only [List.cons_append, List.cons.injEq, List.append_eq_nil_iff] at he
        exact absurd he.2.2.2 hm

example : CutOff [.str "Engine:filtering.SplayTree".toList] [.str "Engine:filtering.SplayTree".toList,
    .bin (SNode.node "a".toList (some (newFilter "1".toList 0)) .nil .nil).marshal] := ⟨_, by simp, rfl⟩

/-- A file whose root is damaged: without the URI nothing changes, without what follows it only the URI, without
    what follows the filter only these two. An error is returned each time. -/
theorem C106_splay_damaged (u u' : Str) (f f' : FilterObject) (m mm : SNode) :
    let load := fun d => unmarshalSplayOver (.node u (some f) m mm)
      [.str "Engine:filtering.SplayTree".toList, .bin d]
    (∀ d, (∀ v d', d ≠ .str v :: d') → load d = (.node u (some f) m mm, true)) ∧
    (∀ d, (∀ b d', d ≠ .bool b :: d') → load (.str u' :: d) = (.node u' (some f) m mm, true)) ∧
    ∀ d, (∀ b d', d ≠ .bool b :: d') → ∃ g, Loaded (some f) (some f') (some g) ∧
      load (.str u' :: .bool true :: .filter f' :: d) = (.node u' (some g) m mm, true) := by
  have e : ∀ d, unmarshalSplayOver (.node u (some f) m mm) [.str "Engine:filtering.SplayTree".toList, .bin d] =
      unmarshalSNodeOver (.node u (some f) m mm) d := by simp [unmarshalSplayOver, gobStr, gobBin]
  have hb : ∀ d, (∀ b d', d ≠ .bool b :: d') → (gobBool d).1 = none := by
    intro d h; unfold gobBool; split <;> simp_all
  refine ⟨fun d h => ?_, fun d h => ?_, fun d h => ⟨f.over f', overFilter_loaded (some f) (some f'), ?_⟩⟩
  · dsimp only
    rw [e, stepS_over, stepS]
    have : (gobStr d).1 = none := by unfold gobStr; split <;> simp_all
    rcases hg : gobStr d with ⟨_ | v, d'⟩
    · rfl
    · rw [hg] at this; cases this
  · dsimp only
    rw [e, stepS_over, stepS]
    have := hb d h
    simp only [gobStr]
    rcases hg : gobBool d with ⟨_ | v, d'⟩
    · rfl
    · rw [hg] at this; cases this
  · dsimp only
    rw [e, stepS_over, stepS]
    have := hb d h
    have hb' : gobBool (.bool true :: .filter f' :: d) = (some true, .filter f' :: d) := rfl
    simp only [gobStr, hb', gobFilterOverIf, if_true, gobFilterOver, SNode.fields]
    rcases hg : gobBool d with ⟨_ | v, d'⟩
    · rfl
    · rw [hg] at this; cases this

/-- The same for a Patricia trie. -/
theorem C106_patricia_damaged (u u' : Str) (f f' : FilterObject) (one zero : PRaw) :
    let load := fun d => unmarshalPatriciaOver (.node u (some f) one zero)
      [.str "Engine:filtering.PatriciaTrie".toList, .bin d]
    (∀ d, (∀ v d', d ≠ .str v :: d') → load d = (.node u (some f) one zero, true)) ∧
    (∀ d, (∀ b d', d ≠ .bool b :: d') → load (.str u' :: d) = (.node u' (some f) one zero, true)) ∧
    ∀ d, (∀ b d', d ≠ .bool b :: d') → ∃ g, Loaded (some f) (some f') (some g) ∧
      load (.str u' :: .bool true :: .filter f' :: d) = (.node u' (some g) one zero, true) := by
  have e : ∀ d, unmarshalPatriciaOver (.node u (some f) one zero)
      [.str "Engine:filtering.PatriciaTrie".toList, .bin d] =
      unmarshalPNodeOver (.node u (some f) one zero) d := by simp [unmarshalPatriciaOver, gobStr, gobBin]
  have hb : ∀ d, (∀ b d', d ≠ .bool b :: d') → (gobBool d).1 = none := by
    intro d h; unfold gobBool; split <;> simp_all
  refine ⟨fun d h => ?_, fun d h => ?_, fun d h => ⟨f.over f', overFilter_loaded (some f) (some f'), ?_⟩⟩
  · dsimp only
    rw [e, stepP_over, stepP]
    have : (gobStr d).1 = none := by unfold gobStr; split <;> simp_all
    rcases hg : gobStr d with ⟨_ | v, d'⟩
    · rfl
    · rw [hg] at this; cases this
  · dsimp only
    rw [e, stepP_over, stepP]
    have := hb d h
    simp only [gobStr]
    rcases hg : gobBool d with ⟨_ | v, d'⟩
    · rfl
    · rw [hg] at this; cases this
  · dsimp only
    rw [e, stepP_over, stepP]
    have := hb d h
    have hb' : gobBool (.bool true :: .filter f' :: d) = (some true, .filter f' :: d) := rfl
    simp only [gobStr, hb', gobFilterOverIf, if_true, gobFilterOver, PRaw.fields]
    rcases hg : gobBool d with ⟨_ | v, d'⟩
    · rfl
    · rw [hg] at this; cases this

-- streams as in the hypotheses
example : (∀ v d', ([.int 3] : List Tok) ≠ .str v :: d') ∧ ∀ b d', ([] : List Tok) ≠ .bool b :: d' := by simp

/-- Damage further on. A part that is announced and is not one of its type leaves what is there, and the error
    of all but the last one is lost; a part that is said to be missing is removed, but for the filter, which stays;
    without the flag of the last part only the parts before it change. -/
theorem C106_splay_damaged_inside (u u' : Str) (f : FilterObject) (m mm : SNode) :
    let load := fun d => unmarshalSplayOver (.node u (some f) m mm)
      [.str "Engine:filtering.SplayTree".toList, .bin d]
    (∀ x y z : Tok, (∀ g, x ≠ .filter g) → (∀ i, y ≠ .bin i) → (∀ i, z ≠ .bin i) →
      load [.str u', .bool true, x, .bool true, y, .bool true, z] = (.node u' (some f) m mm, true) ∧
      load [.str u', .bool true, x, .bool true, y, .bool false] = (.node u' (some f) m .nil, false)) ∧
    load [.str u', .bool false, .bool false, .bool false] = (.node u' (some f) .nil .nil, false) ∧
    (∀ d, (∀ b d', d ≠ .bool b :: d') →
      load (.str u' :: .bool false :: .bool false :: d) = (.node u' (some f) .nil mm, true)) ∧
    (∀ i, load [.str u', .bool false, .bool true, .bin i, .bool true] =
      (.node u' (some f) (unmarshalSplayOver m [.str "Engine:filtering.SplayTree".toList, .bin i]).1 mm, true)) ∧
    load [.str u', .bool true] = (.node u' (some f) m mm, true) := by
  have e : ∀ n d, unmarshalSplayOver n [.str "Engine:filtering.SplayTree".toList, .bin d] =
      unmarshalSNodeOver n d := by simp [unmarshalSplayOver, gobStr, gobBin]
  have hf : ∀ x d, (∀ g, x ≠ .filter g) → gobFilterOver (some f) (x :: d) = (some f, d) := by
    intro x d h; cases x <;> first | rfl | exact absurd rfl (h _)
  have hb : ∀ y d, (∀ i, y ≠ .bin i) → gobBin (y :: d) = (none, d) := by
    intro x d h; cases x <;> first | rfl | exact absurd rfl (h _)
  refine ⟨fun x y z hx hy hz => ⟨?_, ?_⟩, ?_, fun d h => ?_, fun i => ?_, ?_⟩ <;> dsimp only <;>
    rw [e, stepS_over, stepS]
  · simp [gobStr, gobBool, gobFilterOverIf, gobBinIf, SNode.fields, hf _ _ hx, hb _ _ hy, hb _ _ hz]
  · simp [gobStr, gobBool, gobFilterOverIf, gobBinIf, SNode.fields, hf _ _ hx, hb _ _ hy]
  · simp [gobStr, gobBool, gobFilterOverIf, gobBinIf, SNode.fields]
  · have : (gobBool d).1 = none := by unfold gobBool; split <;> simp_all
    have hc : ∀ b d, gobBool (.bool b :: d) = (some b, d) := fun _ _ => rfl
    simp only [gobStr, hc, gobFilterOverIf, gobBinIf, SNode.fields, Bool.false_eq_true, if_false]
    rcases hg : gobBool d with ⟨_ | v, d'⟩
    · rfl
    · rw [hg] at this; cases this
  · rw [e]
    simp [gobStr, gobBool, gobFilterOverIf, gobBinIf, gobBin, SNode.fields]
  · simp [gobStr, gobBool, gobFilterOverIf, gobFilterOver, SNode.fields]

/-- The same for a Patricia trie, where a missing filter is removed and the flag of the branch for zero is not
    looked at: what counts is that of the branch for one. -/
theorem C106_patricia_damaged_inside (u u' : Str) (f : FilterObject) (one zero : PRaw) (b : Bool) :
    let load := fun d => unmarshalPatriciaOver (.node u (some f) one zero)
      [.str "Engine:filtering.PatriciaTrie".toList, .bin d]
    (∀ x y z : Tok, (∀ g, x ≠ .filter g) → (∀ i, y ≠ .bin i) → (∀ i, z ≠ .bin i) →
      load [.str u', .bool true, x, .bool true, y, .bool b, z] = (.node u' (some f) one zero, true) ∧
      load [.str u', .bool true, x, .bool true, y, .bool b] = (.node u' (some f) one zero, true)) ∧
    (∀ d, load (.str u' :: .bool false :: .bool false :: .bool b :: d) = (.node u' none .nil .nil, false)) ∧
    (∀ d, (∀ b d', d ≠ .bool b :: d') →
      load (.str u' :: .bool false :: .bool false :: d) = (.node u' none .nil zero, true)) ∧
    (∀ i, load [.str u', .bool false, .bool true, .bin i, .bool b] =
      (.node u' none (unmarshalPatriciaOver one [.str "Engine:filtering.PatriciaTrie".toList, .bin i]).1 zero,
        true)) ∧
    load [.str u', .bool true] = (.node u' (some f) one zero, true) := by
  have e : ∀ n d, unmarshalPatriciaOver n [.str "Engine:filtering.PatriciaTrie".toList, .bin d] =
      unmarshalPNodeOver n d := by simp [unmarshalPatriciaOver, gobStr, gobBin]
  have hf : ∀ x d, (∀ g, x ≠ .filter g) → gobFilterOver (some f) (x :: d) = (some f, d) := by
    intro x d h; cases x <;> first | rfl | exact absurd rfl (h _)
  have hb : ∀ y d, (∀ i, y ≠ .bin i) → gobBin (y :: d) = (none, d) := by
    intro x d h; cases x <;> first | rfl | exact absurd rfl (h _)
  have hc : ∀ b d, gobBool (.bool b :: d) = (some b, d) := fun _ _ => rfl
  refine ⟨fun x y z hx hy hz => ⟨?_, ?_⟩, fun d => ?_, fun d h => ?_, fun i => ?_, ?_⟩ <;> dsimp only <;>
    rw [e, stepP_over, stepP]
  · simp [gobStr, hc, gobFilterOverIf, gobBinIf, PRaw.fields, hf _ _ hx, hb _ _ hy, hb _ _ hz]
  · simp [gobStr, hc, gobFilterOverIf, gobBinIf, gobBin, PRaw.fields, hf _ _ hx]
  · simp [gobStr, hc, gobFilterOverIf, gobBinIf]
  · have : (gobBool d).1 = none := by unfold gobBool; split <;> simp_all
    simp only [gobStr, hc, gobFilterOverIf, gobBinIf, PRaw.fields, Bool.false_eq_true, if_false]
    rcases hg : gobBool d with ⟨_ | v, d'⟩
    · rfl
    · rw [hg] at this; cases this
  · rw [e]
    simp [gobStr, hc, gobFilterOverIf, gobBinIf, gobBin, PRaw.fields]
  · simp [gobStr, gobBool, gobFilterOverIf, gobFilterOver, PRaw.fields]

-- tokens as in the hypotheses
example : (∀ g, Tok.int 3 ≠ .filter g) ∧ (∀ i, Tok.str [] ≠ .bin i) ∧ ∀ b d', ([.int 3] : List Tok) ≠ .bool b :: d' := by
  simp

/-- Loading a saved partial subscription gives no error and its offset and URI; the subset has the saved keys with
    what was saved and the other keys with what they had. -/
theorem C106_partial_subscription (p old : PSub) (h : p.Maps) (ho : IsMap old.subset) :
    ∃ r, unmarshalPSubOver old p.marshal = (r, false) ∧ r.offset = p.offset ∧ r.uri = p.uri ∧ IsMap r.subset ∧
      ∀ q, mapGet r.subset q = (mapGet p.subset q).or (mapGet old.subset q) := by
  obtain ⟨o, u, s⟩ := p
  unfold PSub.Maps at h
  obtain ⟨r, h1, h2, h3⟩ := bsubOver_marshal s old.subset h.2 h.1 ho
  refine ⟨.mk o u r, ?_, rfl, rfl, h2, h3⟩
  rw [PSub.marshal]
  simp only [unmarshalPSubOver, gobInt, gobStr, gobMap, Int.toNat_natCast, h1]

example : (unmarshalPSubOver (.mk 3 "x".toList [("0011".toList, .mk 4 "b".toList []), ("1".toList, .mk 4 "c".toList [])])
    (PSub.mk 0 [] [("0011".toList, .mk 4 "d".toList [])]).marshal).1.subset.map (fun e => (e.1, e.2.uri)) =
    [("0011".toList, "d".toList), ("1".toList, "c".toList)] := by decide +kernel

/-- A damaged one: without the offset nothing changes, without the URI only the offset, without the subset only
    these two. An error is returned each time. -/
theorem C106_partial_subscription_damaged (old : PSub) :
    (∀ d, (∀ n d', d ≠ .int n :: d') → unmarshalPSubOver old d = (old, true)) ∧
    (∀ (o : Nat) d, (∀ v d', d ≠ .str v :: d') →
      unmarshalPSubOver old (.int o :: d) = (.mk o old.uri old.subset, true)) ∧
    ∀ (o : Nat) u d, (∀ m d', d ≠ .map m :: d') →
      unmarshalPSubOver old (.int o :: .str u :: d) = (.mk o u old.subset, true) := by
  have hi : ∀ d, (∀ n d', d ≠ .int n :: d') → (gobInt d).1 = none := by
    intro d h; unfold gobInt; split <;> simp_all
  have hs : ∀ d, (∀ v d', d ≠ .str v :: d') → (gobStr d).1 = none := by
    intro d h; unfold gobStr; split <;> simp_all
  have hm : ∀ d, (∀ m d', d ≠ .map m :: d') → (gobMap d).1 = none := by
    intro d h; unfold gobMap; split <;> simp_all
  have ki : ∀ n d, gobInt (.int n :: d) = (some n, d) := fun _ _ => rfl
  have ks : ∀ n d, gobStr (.str n :: d) = (some n, d) := fun _ _ => rfl
  refine ⟨fun d h => ?_, fun o d h => ?_, fun o u d h => ?_⟩ <;> unfold unmarshalPSubOver
  · have := hi d h
    rcases hg : gobInt d with ⟨_ | v, d'⟩
    · rfl
    · rw [hg] at this; cases this
  · have := hs d h
    simp only [ki]
    rcases hg : gobStr d with ⟨_ | v, d'⟩
    · rfl
    · rw [hg] at this; cases this
  · have := hm d h
    simp only [ki, ks]
    rcases hg : gobMap d with ⟨_ | v, d'⟩
    · rfl
    · rw [hg] at this; cases this

example : (∀ n d', ([.str []] : List Tok) ≠ .int n :: d') ∧ (∀ v d', ([] : List Tok) ≠ .str v :: d') ∧
    ∀ m d', ([.bool true] : List Tok) ≠ .map m :: d' := by simp

/-- Loading into a new partial subscription is what C52 is about. -/
theorem C106_fresh_subscription (d : List Tok) : unmarshalPSubOver (.mk 0 [] []) d = unmarshalPSub d := by
  rw [unmarshalPSub, unmarshalPSubOver]
  simp only [PSub.uri, PSub.subset]
  (repeat' split) <;> simp_all

end Gosstrak
