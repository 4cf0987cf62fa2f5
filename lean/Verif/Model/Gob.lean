import Verif.Model.Patricia
import Verif.Model.Splay

/-!
`encoding/gob` as a stream of typed values. Each `Encode` appends one value, each `Decode` takes one off.
At the end of the stream `Decode` fails with `io.EOF`; a value of another type is taken off, but
fails. A failing `Decode` leaves its target alone. A type with `MarshalBinary`/`UnmarshalBinary`
travels as the bytes it makes of itself, which here are again a stream; gob does not compare the
names of such types. Struct fields that gob leaves out because they are zero come back as zero in a
freshly allocated struct. An error of a nested `UnmarshalBinary` is the error of the `Decode` that
called it, and the target keeps what it received until then. `Encode` of a nil pointer panics. The
byte format, memory limits, the limit on message sizes and bytes that no encoder wrote are not modelled.

Decoding is modelled here for a target that is a new engine: trees with a nil root, lists and maps of
any content. Trees with nodes are in Model/Reload.
-/
namespace Gosstrak

/-- one encoded value -/
inductive Tok where
  | int (n : Int)
  | str (s : Str)
  | bool (b : Bool)
  | filter (f : FilterObject)
  | bin (data : List Tok)
  | map (entries : List (Str × List Tok))

/-- `Decode` into an `int` -/
def gobInt : List Tok → Option Int × List Tok
  | [] => (none, [])
  | .int n :: d => (some n, d)
  | _ :: d => (none, d)

/-- `Decode` into a `string` -/
def gobStr : List Tok → Option Str × List Tok
  | [] => (none, [])
  | .str s :: d => (some s, d)
  | _ :: d => (none, d)

/-- `Decode` into a `bool` -/
def gobBool : List Tok → Option Bool × List Tok
  | [] => (none, [])
  | .bool b :: d => (some b, d)
  | _ :: d => (none, d)

/-- `Decode` into a nil `*FilterObject` -/
def gobFilter : List Tok → Option FilterObject × List Tok
  | [] => (none, [])
  | .filter f :: d => (some f, d)
  | _ :: d => (none, d)

/-- the bytes handed to an `UnmarshalBinary` -/
def gobBin : List Tok → Option (List Tok) × List Tok
  | [] => (none, [])
  | .bin i :: d => (some i, d)
  | _ :: d => (none, d)

/-- the entries of a map whose elements have an `UnmarshalBinary` -/
def gobMap : List Tok → Option (List (Str × List Tok)) × List Tok
  | [] => (none, [])
  | .map m :: d => (some m, d)
  | _ :: d => (none, d)

/-! ### List -/

/-- filtering/list.go:84-102 `List.MarshalBinary` -/
def marshalList (l : ListEngine) : List Tok :=
  [.str "Engine:filtering.List".toList, .int l.length] ++ l.flatMap fun em => [.str em.2, .filter em.1]

/-- filtering/list.go:137-146: the loop of `List.UnmarshalBinary`; `filters` is the list so far, `err`
    the last error, the result is the list and the returned error. A `nil` filter is `none`. -/
def unmarshalListLoop : Nat → List (Option FilterObject × Str) → Bool → List Tok →
    List (Option FilterObject × Str) × Bool
  | 0, filters, err, _ => (filters, err)
  | n + 1, filters, _, d =>
    match gobStr d with
    | (none, _) => (filters, true)
    | (some uri, d) =>
      match gobFilter d with
      | (f, d) => unmarshalListLoop n (filters ++ [(f, uri)]) f.isNone d

/-- filtering/list.go:122-152 `List.UnmarshalBinary` -/
def unmarshalList (filters : List (Option FilterObject × Str)) (d : List Tok) :
    List (Option FilterObject × Str) × Bool :=
  match gobStr d with
  | (none, _) => (filters, true)
  | (some t, d) =>
    if t ≠ "Engine:filtering.List".toList then (filters, true)
    else match gobInt d with
      | (none, _) => (filters, true)
      | (some n, d) => unmarshalListLoop n.toNat filters false d

/-- filtering/list.go:109-120 `List.Search` of a decoded list, filtering/filter_object.go:58-59: the
    method is called on every filter, which panics for a nil filter. -/
def searchDecodedList (tr : Translator) (filters : List (Option FilterObject × Str)) (pc id : List Byte) :
    Option SearchResult :=
  match filters.mapM fun em => em.1.map fun f => (f, em.2) with
  | none => none
  | some l => ListEngine.search l tr pc id

/-! ### LegacyEngine -/

/-- filtering/legacy_engine.go:62-82 `LegacyEngine.MarshalBinary` -/
def marshalLegacy (filters : Subs) : List Tok :=
  [.str "Engine:filtering.LegacyEngine".toList, .int (mapKeys filters).length] ++
    (mapKeys filters).flatMap fun f =>
      let uris := (mapGet filters f).getD []
      [.str f, .int uris.length] ++ uris.map .str

/-- filtering/legacy_engine.go:165-170: the inner loop; the slice read, the last error and the rest -/
def unmarshalLegacyInner : Nat → List Str → Bool → List Tok → List Str × Bool × List Tok
  | 0, uris, err, d => (uris, err, d)
  | n + 1, uris, _, d =>
    match gobStr d with
    | (s, d) => unmarshalLegacyInner n (uris ++ [s.getD []]) s.isNone d

/-- filtering/legacy_engine.go:154-171: the outer loop, with `size` the decoded number of entries.
    The slice read by the inner loop is dropped. -/
def unmarshalLegacyLoop (size : Nat) : Nat → Subs → Bool → List Tok → Subs × Bool
  | 0, filters, err, _ => (filters, err)
  | n + 1, filters, _, d =>
    match gobStr d with
    | (none, _) => (filters, true)
    | (some _, d) =>
      match gobInt d with
      | (none, _) => (filters, true)
      | (some _, d) =>
        match unmarshalLegacyInner size [] false d with
        | (_, err, d) => unmarshalLegacyLoop size n filters err d

/-- filtering/legacy_engine.go:140-177 `LegacyEngine.UnmarshalBinary` -/
def unmarshalLegacy (filters : Subs) (d : List Tok) : Subs × Bool :=
  match gobStr d with
  | (none, _) => (filters, true)
  | (some t, d) =>
    if t ≠ "Engine:filtering.LegacyEngine".toList then (filters, true)
    else match gobInt d with
      | (none, _) => (filters, true)
      | (some n, d) => unmarshalLegacyLoop n.toNat n.toNat filters false d

/-! ### PatriciaTrie -/

/-- filtering/patricia_trie.go:107-135 `PatriciaTrieNode.MarshalBinary`; never called on nil -/
def PNode.marshal : PNode → List Tok
  | .nil => []
  | .node uri f one zero =>
    [.str uri, .bool true, .filter f] ++
    [.bool (decide (one ≠ .nil))] ++ (if one ≠ .nil then [.bin one.marshal] else []) ++
    [.bool (decide (zero ≠ .nil))] ++ (if zero ≠ .nil then [.bin zero.marshal] else [])

/-- filtering/patricia_trie.go:59-71 `PatriciaTrie.MarshalBinary`; `none` is the panic of
    `Encode` for a nil root. -/
def marshalPatricia (root : PNode) : Option (List Tok) :=
  if root = .nil then none
  else some [.str "Engine:filtering.PatriciaTrie".toList, .bin root.marshal]

/-- a decoded `PatriciaTrieNode`, which can lack its filter -/
inductive PRaw where
  | nil
  | node (uri : Str) (f : Option FilterObject) (one zero : PRaw)
deriving DecidableEq, Repr

theorem gobStr_size (d : List Tok) : sizeOf (gobStr d).2 ≤ sizeOf d := by
  unfold gobStr; split <;> simp
theorem gobBool_size (d : List Tok) : sizeOf (gobBool d).2 ≤ sizeOf d := by
  unfold gobBool; split <;> simp
theorem gobFilter_size (d : List Tok) : sizeOf (gobFilter d).2 ≤ sizeOf d := by
  unfold gobFilter; split <;> simp
theorem gobInt_size (d : List Tok) : sizeOf (gobInt d).2 ≤ sizeOf d := by
  unfold gobInt; split <;> simp
theorem gobBin_size (d : List Tok) : sizeOf (gobBin d).2 ≤ sizeOf d := by
  unfold gobBin; split <;> simp
theorem gobBin_size' {d i : List Tok} (h : (gobBin d).1 = some i) : sizeOf i < sizeOf d := by
  unfold gobBin at h; split at h <;> simp at h
  subst h; simp; omega

/-- `if has { Decode(&filterObject) }` on a nil pointer -/
def gobFilterIf (has : Bool) (d : List Tok) : Option FilterObject × List Tok :=
  if has then gobFilter d else (none, d)

/-- `if has { Decode(&next) }` on a nil pointer: the bytes handed to `UnmarshalBinary` -/
def gobBinIf (has : Bool) (d : List Tok) : Option (List Tok) × List Tok :=
  if has then gobBin d else (none, d)

theorem gobFilterIf_size (has : Bool) (d : List Tok) : sizeOf (gobFilterIf has d).2 ≤ sizeOf d := by
  unfold gobFilterIf; split <;> simp [gobFilter_size]
theorem gobBinIf_size (has : Bool) (d : List Tok) : sizeOf (gobBinIf has d).2 ≤ sizeOf d := by
  unfold gobBinIf; split <;> simp [gobBin_size]
theorem gobBinIf_size' {has : Bool} {d i : List Tok} (h : (gobBinIf has d).1 = some i) :
    sizeOf i < sizeOf d := by
  unfold gobBinIf at h; split at h
  · exact gobBin_size' h
  · simp at h

/-- filtering/patricia_trie.go:138-181 `PatriciaTrieNode.UnmarshalBinary` of a new node: the node and
    the returned error. At 174 the flag tested for the zero branch is `hasOne`. -/
def unmarshalPNode (d : List Tok) : PRaw × Bool :=
  match _h1 : gobStr d with
  | (none, _) => (.node [] none .nil .nil, true)
  | (some uri, d1) =>
    match _h2 : gobBool d1 with
    | (none, _) => (.node uri none .nil .nil, true)
    | (some hasFilter, d2) =>
      -- 152-156: the error is overwritten at 160
      match _h3 : gobFilterIf hasFilter d2 with
      | (f, d3) =>
        match _h4 : gobBool d3 with
        | (none, _) => (.node uri f .nil .nil, true)
        | (some hasOne, d4) =>
          -- 163-167: the error is overwritten at 171
          match _h5 : gobBinIf hasOne d4 with
          | (i, d5) =>
            let one := match _h6 : i with
              | none => .nil
              | some i => (unmarshalPNode i).1
            match _h7 : gobBool d5 with
            | (none, _) => (.node uri f one .nil, true)
            | (some _, d6) =>
              if hasOne then
                match _h8 : gobBin d6 with
                | (none, _) => (.node uri f one .nil, true)
                | (some i, _) =>
                  let r := unmarshalPNode i
                  (.node uri f one r.1, r.2)
              else (.node uri f one .nil, false)
termination_by sizeOf d
decreasing_by
  · have a := gobStr_size d
    have b := gobBool_size d1
    have c := gobFilterIf_size hasFilter d2
    have e := gobBool_size d3
    subst _h6
    have g := gobBinIf_size' (d := d4) (by rw [_h5])
    rw [_h1] at a; rw [_h2] at b; rw [_h3] at c; rw [_h4] at e
    simp only at a b c e
    omega
  · have a := gobStr_size d
    have b := gobBool_size d1
    have c := gobFilterIf_size hasFilter d2
    have e := gobBool_size d3
    have g := gobBinIf_size hasOne d4
    have k := gobBool_size d5
    have m := gobBin_size' (d := d6) (by rw [_h8])
    rw [_h1] at a; rw [_h2] at b; rw [_h3] at c; rw [_h4] at e; rw [_h5] at g; rw [_h7] at k
    simp only at a b c e g k
    omega

/-- filtering/patricia_trie.go:87-104 `PatriciaTrie.UnmarshalBinary`, from a nil root -/
def unmarshalPatricia (d : List Tok) : PRaw × Bool :=
  match gobStr d with
  | (none, _) => (.nil, true)
  | (some t, d) =>
    if t ≠ "Engine:filtering.PatriciaTrie".toList then (.nil, true)
    else match gobBin d with
      | (none, _) => (.nil, true)
      | (some i, _) => unmarshalPNode i

/-! ### SplayTree -/

/-- filtering/splay_tree.go:107-135 `SplayTreeNode.MarshalBinary`; never called on nil -/
def SNode.marshal : SNode → List Tok
  | .nil => []
  | .node uri f m mm =>
    [.str uri, .bool f.isSome] ++ (match f with | some f => [.filter f] | none => []) ++
    [.bool (decide (m ≠ .nil))] ++ (if m ≠ .nil then [.bin m.marshal] else []) ++
    [.bool (decide (mm ≠ .nil))] ++ (if mm ≠ .nil then [.bin mm.marshal] else [])

/-- filtering/splay_tree.go:59-70 `SplayTree.MarshalBinary`; `none` is the panic of `Encode`
    for a nil root. -/
def marshalSplay (root : SNode) : Option (List Tok) :=
  if root = .nil then none
  else some [.str "Engine:filtering.SplayTree".toList, .bin root.marshal]

/-- filtering/splay_tree.go:138-179 `SplayTreeNode.UnmarshalBinary` of a new node -/
def unmarshalSNode (d : List Tok) : SNode × Bool :=
  match _h1 : gobStr d with
  | (none, _) => (.node [] none .nil .nil, true)
  | (some uri, d1) =>
    match _h2 : gobBool d1 with
    | (none, _) => (.node uri none .nil .nil, true)
    | (some hasFilter, d2) =>
      match _h3 : gobFilterIf hasFilter d2 with
      | (f, d3) =>
        match _h4 : gobBool d3 with
        | (none, _) => (.node uri f .nil .nil, true)
        | (some hasMatchNext, d4) =>
          match _h5 : gobBinIf hasMatchNext d4 with
          | (i, d5) =>
            let m := match _h6 : i with
              | none => .nil
              | some i => (unmarshalSNode i).1
            match _h7 : gobBool d5 with
            | (none, _) => (.node uri f m .nil, true)
            | (some hasMismatchNext, d6) =>
              if hasMismatchNext then
                match _h8 : gobBin d6 with
                | (none, _) => (.node uri f m .nil, true)
                | (some i, _) =>
                  let r := unmarshalSNode i
                  (.node uri f m r.1, r.2)
              else (.node uri f m .nil, false)
termination_by sizeOf d
decreasing_by
  · have a := gobStr_size d
    have b := gobBool_size d1
    have c := gobFilterIf_size hasFilter d2
    have e := gobBool_size d3
    subst _h6
    have g := gobBinIf_size' (d := d4) (by rw [_h5])
    rw [_h1] at a; rw [_h2] at b; rw [_h3] at c; rw [_h4] at e
    simp only at a b c e
    omega
  · have a := gobStr_size d
    have b := gobBool_size d1
    have c := gobFilterIf_size hasFilter d2
    have e := gobBool_size d3
    have g := gobBinIf_size hasMatchNext d4
    have k := gobBool_size d5
    have m := gobBin_size' (d := d6) (by rw [_h8])
    rw [_h1] at a; rw [_h2] at b; rw [_h3] at c; rw [_h4] at e; rw [_h5] at g; rw [_h7] at k
    simp only at a b c e g k
    omega

/-- filtering/splay_tree.go:87-104 `SplayTree.UnmarshalBinary`, from a nil root -/
def unmarshalSplay (d : List Tok) : SNode × Bool :=
  match gobStr d with
  | (none, _) => (.nil, true)
  | (some t, d) =>
    if t ≠ "Engine:filtering.SplayTree".toList then (.nil, true)
    else match gobBin d with
      | (none, _) => (.nil, true)
      | (some i, _) => unmarshalSNode i

/-! ### Subscriptions -/

/-- filtering/subscriptions.go:61-82 `Subscriptions.MarshalBinary` -/
def marshalSubs (sub : Subs) : List Tok :=
  [.int sub.length] ++ (mapKeys sub).flatMap fun fs =>
    let dests := (mapGet sub fs).getD []
    [.str fs, .int dests.length] ++ dests.map .str

/-- filtering/subscriptions.go:105-112: the inner loop; `none` is an error -/
def unmarshalDests : Nat → List Str → List Tok → Option (List Str × List Tok)
  | 0, dests, d => some (dests, d)
  | n + 1, dests, d =>
    match gobStr d with
    | (none, _) => none
    | (some s, d) => unmarshalDests n (dests ++ [s]) d

/-- filtering/subscriptions.go:94-114: the outer loop -/
def unmarshalSubsLoop : Nat → Subs → List Tok → Subs × Bool
  | 0, sub, _ => (sub, false)
  | n + 1, sub, d =>
    match gobStr d with
    | (none, _) => (sub, true)
    | (some fs, d) =>
      match gobInt d with
      | (none, _) => (sub, true)
      | (some k, d) =>
        match unmarshalDests k.toNat [] d with
        | none => (sub, true)
        | some (dests, d) => unmarshalSubsLoop n (mapSet sub fs dests) d

/-- filtering/subscriptions.go:85-117 `Subscriptions.UnmarshalBinary` into the (non-nil) map `sub` -/
def unmarshalSubs (sub : Subs) (d : List Tok) : Subs × Bool :=
  match gobInt d with
  | (none, _) => (sub, true)
  | (some n, d) => unmarshalSubsLoop n.toNat sub d

mutual
/-- filtering/subscriptions.go:184-199 `PartialSubscription.MarshalBinary` -/
def PSub.marshal : PSub → List Tok
  | .mk o u s => [.int o, .str u, .map (marshalBSub s)]
/-- gob's encoding of a `ByteSubscriptions` map in iteration order -/
def marshalBSub : List (Str × PSub) → List (Str × List Tok)
  | [] => []
  | (k, p) :: s => (k, p.marshal) :: marshalBSub s
end

theorem gobMap_size' {d : List Tok} {m : List (Str × List Tok)} (h : (gobMap d).1 = some m) :
    sizeOf m < sizeOf d := by
  unfold gobMap at h; split at h <;> simp at h
  subst h; simp; omega

mutual
/-- filtering/subscriptions.go:202-221 `PartialSubscription.UnmarshalBinary` of a new value; offsets
    are modelled as natural numbers -/
def unmarshalPSub (d : List Tok) : PSub × Bool :=
  match _h1 : gobInt d with
  | (none, _) => (.mk 0 [] [], true)
  | (some o, d1) =>
    match _h2 : gobStr d1 with
    | (none, _) => (.mk o.toNat [] [], true)
    | (some u, d2) =>
      match _h3 : gobMap d2 with
      | (none, _) => (.mk o.toNat u [], true)
      | (some m, _) =>
        let r := unmarshalBSub m []
        (.mk o.toNat u r.1, r.2)
termination_by sizeOf d
decreasing_by
  have a := gobInt_size d
  have b := gobStr_size d1
  have c := gobMap_size' (d := d2) (by rw [_h3])
  rw [_h1] at a; rw [_h2] at b
  simp only at a b
  omega
/-- gob's decoding of a `ByteSubscriptions` map into the map `s`; it stops at the first error -/
def unmarshalBSub (m : List (Str × List Tok)) (s : List (Str × PSub)) : List (Str × PSub) × Bool :=
  match m with
  | [] => (s, false)
  | (k, i) :: m =>
    let r := unmarshalPSub i
    if r.2 then (s, true) else unmarshalBSub m (mapSet s k r.1)
termination_by sizeOf m
end

end Gosstrak
