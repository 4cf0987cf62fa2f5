import Verif.Model.Gob

/-!
Decoding into an engine that is in use, beyond lists and maps, which Model/Gob has. gob reuses what a
non-nil pointer points to, so nodes and filters are overwritten in place, and it leaves out the fields of
a struct that are zero, so those of a filter keep what they had. A string, number or truth value that is
encoded by itself is always written. Elements of a map are always new. Nodes and filters are not shared between places (C77, C78), so
overwriting one does not change another.
-/
namespace Gosstrak

/-- gob's decoding of the struct of filtering/filter_object.go:22-31 `new` into one with the value `old` -/
def FilterObject.over (old new : FilterObject) : FilterObject where
  str := if new.str = [] then old.str else new.str
  size := if new.size = 0 then old.size else new.size
  offset := if new.offset = 0 then old.offset else new.offset
  byteFilter := if new.byteFilter = [] then old.byteFilter else new.byteFilter
  byteMask := if new.byteMask = [] then old.byteMask else new.byteMask
  byteOffset := if new.byteOffset = 0 then old.byteOffset else new.byteOffset
  byteSize := if new.byteSize = 0 then old.byteSize else new.byteSize

/-- `Decode` into a `*FilterObject`: the pointer afterwards and the rest -/
def gobFilterOver (old : Option FilterObject) : List Tok → Option FilterObject × List Tok
  | [] => (old, [])
  | .filter f :: d => (some (match old with | none => f | some o => o.over f), d)
  | _ :: d => (old, d)

theorem gobFilterOver_size (old : Option FilterObject) (d : List Tok) : sizeOf (gobFilterOver old d).2 ≤ sizeOf d := by
  unfold gobFilterOver; split <;> simp

/-- `if has { Decode(&filterObject) } else { ... }`, where `other` is the pointer in the other case -/
def gobFilterOverIf (has : Bool) (old other : Option FilterObject) (d : List Tok) : Option FilterObject × List Tok :=
  if has then gobFilterOver old d else (other, d)

theorem gobFilterOverIf_size (has : Bool) (old other : Option FilterObject) (d : List Tok) :
    sizeOf (gobFilterOverIf has old other d).2 ≤ sizeOf d := by
  unfold gobFilterOverIf; split <;> simp [gobFilterOver_size]

/-! ### PatriciaTrie -/

/-- the fields of a node, those of a new one for a nil pointer -/
def PRaw.fields : PRaw → Str × Option FilterObject × PRaw × PRaw
  | .nil => ([], none, .nil, .nil)
  | .node u f one zero => (u, f, one, zero)

/-- filtering/patricia_trie.go:138-181 `PatriciaTrieNode.UnmarshalBinary` of the node `old`, of a new one if that
    is nil: the node and the returned error. A missing filter is set to nil (154-156). At 174 the flag tested
    for the zero branch is `hasOne`. -/
def unmarshalPNodeOver (old : PRaw) (d : List Tok) : PRaw × Bool :=
  match old.fields with
  | (u0, f0, one0, zero0) =>
    match _h1 : gobStr d with
    | (none, _) => (.node u0 f0 one0 zero0, true)
    | (some uri, d1) =>
      match _h2 : gobBool d1 with
      | (none, _) => (.node uri f0 one0 zero0, true)
      | (some hasFilter, d2) =>
        match _h3 : gobFilterOverIf hasFilter f0 none d2 with
        | (f, d3) =>
          match _h4 : gobBool d3 with
          | (none, _) => (.node uri f one0 zero0, true)
          | (some hasOne, d4) =>
            match _h5 : gobBinIf hasOne d4 with
            | (i, d5) =>
              -- a failing `Decode` leaves the pointer alone, and its error is overwritten
              let one := match _h6 : i with
                | none => if hasOne then one0 else .nil
                | some i => (unmarshalPNodeOver one0 i).1
              match _h7 : gobBool d5 with
              | (none, _) => (.node uri f one zero0, true)
              | (some _, d6) =>
                if hasOne then
                  match _h8 : gobBin d6 with
                  | (none, _) => (.node uri f one zero0, true)
                  | (some i, _) =>
                    let r := unmarshalPNodeOver zero0 i
                    (.node uri f one r.1, r.2)
                else (.node uri f one .nil, false)
termination_by sizeOf d
decreasing_by
  · have a := gobStr_size d
    have b := gobBool_size d1
    have c := gobFilterOverIf_size hasFilter f0 none d2
    have e := gobBool_size d3
    subst _h6
    have g := gobBinIf_size' (d := d4) (by rw [_h5])
    rw [_h1] at a; rw [_h2] at b; rw [_h3] at c; rw [_h4] at e
    simp only at a b c e
    omega
  · have a := gobStr_size d
    have b := gobBool_size d1
    have c := gobFilterOverIf_size hasFilter f0 none d2
    have e := gobBool_size d3
    have g := gobBinIf_size hasOne d4
    have k := gobBool_size d5
    have m := gobBin_size' (d := d6) (by rw [_h8])
    rw [_h1] at a; rw [_h2] at b; rw [_h3] at c; rw [_h4] at e; rw [_h5] at g; rw [_h7] at k
    simp only at a b c e g k
    omega

/-- filtering/patricia_trie.go:87-104 `PatriciaTrie.UnmarshalBinary` of a trie with the root `old` -/
def unmarshalPatriciaOver (old : PRaw) (d : List Tok) : PRaw × Bool :=
  match gobStr d with
  | (none, _) => (old, true)
  | (some t, d) =>
    if t ≠ "Engine:filtering.PatriciaTrie".toList then (old, true)
    else match gobBin d with
      | (none, _) => (old, true)
      | (some i, _) => unmarshalPNodeOver old i

/-! ### SplayTree -/

/-- the fields of a node, those of a new one for a nil pointer -/
def SNode.fields : SNode → Str × Option FilterObject × SNode × SNode
  | .nil => ([], none, .nil, .nil)
  | .node u f m mm => (u, f, m, mm)

/-- filtering/splay_tree.go:138-179 `SplayTreeNode.UnmarshalBinary` of the node `old`, of a new one if that is
    nil. A missing filter leaves the one that is there (152-154). -/
def unmarshalSNodeOver (old : SNode) (d : List Tok) : SNode × Bool :=
  match old.fields with
  | (u0, f0, m0, mm0) =>
    match _h1 : gobStr d with
    | (none, _) => (.node u0 f0 m0 mm0, true)
    | (some uri, d1) =>
      match _h2 : gobBool d1 with
      | (none, _) => (.node uri f0 m0 mm0, true)
      | (some hasFilter, d2) =>
        match _h3 : gobFilterOverIf hasFilter f0 f0 d2 with
        | (f, d3) =>
          match _h4 : gobBool d3 with
          | (none, _) => (.node uri f m0 mm0, true)
          | (some hasMatchNext, d4) =>
            match _h5 : gobBinIf hasMatchNext d4 with
            | (i, d5) =>
              -- a failing `Decode` leaves the pointer alone, and its error is overwritten
              let m := match _h6 : i with
                | none => if hasMatchNext then m0 else .nil
                | some i => (unmarshalSNodeOver m0 i).1
              match _h7 : gobBool d5 with
              | (none, _) => (.node uri f m mm0, true)
              | (some hasMismatchNext, d6) =>
                if hasMismatchNext then
                  match _h8 : gobBin d6 with
                  | (none, _) => (.node uri f m mm0, true)
                  | (some i, _) =>
                    let r := unmarshalSNodeOver mm0 i
                    (.node uri f m r.1, r.2)
                else (.node uri f m .nil, false)
termination_by sizeOf d
decreasing_by
  · have a := gobStr_size d
    have b := gobBool_size d1
    have c := gobFilterOverIf_size hasFilter f0 f0 d2
    have e := gobBool_size d3
    subst _h6
    have g := gobBinIf_size' (d := d4) (by rw [_h5])
    rw [_h1] at a; rw [_h2] at b; rw [_h3] at c; rw [_h4] at e
    simp only at a b c e
    omega
  · have a := gobStr_size d
    have b := gobBool_size d1
    have c := gobFilterOverIf_size hasFilter f0 f0 d2
    have e := gobBool_size d3
    have g := gobBinIf_size hasMatchNext d4
    have k := gobBool_size d5
    have m := gobBin_size' (d := d6) (by rw [_h8])
    rw [_h1] at a; rw [_h2] at b; rw [_h3] at c; rw [_h4] at e; rw [_h5] at g; rw [_h7] at k
    simp only at a b c e g k
    omega

/-- filtering/splay_tree.go:87-104 `SplayTree.UnmarshalBinary` of a tree with the root `old` -/
def unmarshalSplayOver (old : SNode) (d : List Tok) : SNode × Bool :=
  match gobStr d with
  | (none, _) => (old, true)
  | (some t, d) =>
    if t ≠ "Engine:filtering.SplayTree".toList then (old, true)
    else match gobBin d with
      | (none, _) => (old, true)
      | (some i, _) => unmarshalSNodeOver old i

/-! ### PartialSubscription -/

/-- filtering/subscriptions.go:202-221 `PartialSubscription.UnmarshalBinary` of the value `old` -/
def unmarshalPSubOver (old : PSub) (d : List Tok) : PSub × Bool :=
  match gobInt d with
  | (none, _) => (old, true)
  | (some o, d) =>
    match gobStr d with
    | (none, _) => (.mk o.toNat old.uri old.subset, true)
    | (some u, d) =>
      match gobMap d with
      | (none, _) => (.mk o.toNat u old.subset, true)
      | (some m, _) =>
        let r := unmarshalBSub m old.subset
        (.mk o.toNat u r.1, r.2)

end Gosstrak
