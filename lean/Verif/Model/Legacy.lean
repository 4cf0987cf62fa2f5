import Verif.Model.Heap
import Verif.Model.ListEngine

namespace Gosstrak

/-- filtering/legacy_engine.go:197-204 `stringIndexInSlice` -/
def stringIndex (a : Str) : List Str → Option Nat
  | [] => none
  | b :: l => if b = a then some 0 else (stringIndex a l).map (· + 1)

/-- filtering/legacy_engine.go:25-29: body of the inner loop of `AddSubscription`; `snap` is
    `reportURIs`, `s` is `sub[f]`, `j` the index into it -/
def legacyAddElem (grow : Nat → Nat) (f : Str) (snap s : Slice) (st : Heap × SliceMap) (j : Nat) :
    Heap × SliceMap :=
  let dest := ((st.1.view s)[j]?).getD []
  match stringIndex dest (st.1.view snap) with
  | some _ => st
  | none =>
    match mapGet st.2 f with
    | none => st -- the key is present
    | some cur =>
      let r := st.1.append grow cur dest
      (r.1, mapSet st.2 f r.2)

/-- filtering/legacy_engine.go:21-31: one key of `AddSubscription` -/
def legacyAddKey (grow : Nat → Nat) (sub : SliceMap) (st : Heap × SliceMap) (f : Str) : Heap × SliceMap :=
  match mapGet sub f with
  | none => st -- the key comes from `sub`
  | some s =>
    match mapGet st.2 f with
    | none => (st.1, mapSet st.2 f s)
    | some snap => (List.range s.len).foldl (legacyAddElem grow f snap s) st

/-- filtering/legacy_engine.go:20-32 `AddSubscription`; the engine is its `filters` map -/
def legacyAdd (grow : Nat → Nat) (sub : SliceMap) (st : Heap × SliceMap) : Heap × SliceMap :=
  (mapKeys sub).foldl (legacyAddKey grow sub) st

/-- filtering/legacy_engine.go:40-44: body of the inner loop of `DeleteSubscription` -/
def legacyDeleteElem (f : Str) (snap s : Slice) (st : Heap × SliceMap) (j : Nat) : Heap × SliceMap :=
  let dest := ((st.1.view s)[j]?).getD []
  match stringIndex dest (st.1.view snap) with
  | none => st
  | some i =>
    let r := st.1.removeAt snap i
    (r.1, mapSet st.2 f r.2)

/-- filtering/legacy_engine.go:36-49: one key of `DeleteSubscription` -/
def legacyDeleteKey (sub : SliceMap) (st : Heap × SliceMap) (f : Str) : Heap × SliceMap :=
  match mapGet sub f with
  | none => st -- the key comes from `sub`
  | some s =>
    match mapGet st.2 f with
    | none => st
    | some snap =>
      let r := (List.range s.len).foldl (legacyDeleteElem f snap s) st
      match mapGet r.2 f with
      | none => r -- the key is present
      | some cur => if cur.len = 0 then (r.1, mapDelete r.2 f) else r

/-- filtering/legacy_engine.go:35-50 `DeleteSubscription` -/
def legacyDelete (sub : SliceMap) (st : Heap × SliceMap) : Heap × SliceMap :=
  (mapKeys sub).foldl (legacyDeleteKey sub) st

/-- `strings.Replace(s, ".", "", -1)` -/
def dropDots (s : Str) : Str := s.filter (· ≠ '.')

/-- `strings.Join(l, ".")` -/
def joinDots (l : List Str) : Str := ['.'].intercalate l

/-- filtering/legacy_engine.go:99-126: the text a pattern is compared as; `none` for a pattern that
    is skipped -/
def legacyText (pat : Str) : Option Str :=
  match splitOn ':' pat with
  | [_, _, _, t, body] => some <|
    if t = "giai-96".toList then "giai:".toList ++ joinDots ((splitOn '.' body).drop 1)
    else if t = "grai-96".toList then "grai:".toList ++ joinDots ((splitOn '.' body).drop 1)
    else if t = "sgtin-96".toList then "sgtin:".toList ++ joinDots ((splitOn '.' body).drop 1)
    else if t = "sscc-96".toList then "sscc:".toList ++ joinDots ((splitOn '.' body).drop 1)
    else if t = "iso17363".toList then t ++ ":".toList ++ dropDots body
    else if t = "iso17365".toList then t ++ ":".toList ++ dropDots body
    else body
  | _ => none

/-- filtering/legacy_engine.go:127-129 -/
def legacyMatches (pureIdentity pat : Str) : Bool :=
  match legacyText pat with
  | none => false
  | some s => hasPrefix (trimPrefix pureIdentity "urn:epc:id:".toList) s

/-- filtering/legacy_engine.go:90-137 `Search` on an engine with the given `filters`, visited in the
    order of the list -/
def legacySearch (tr : Translator) (filters : Subs) (pc id : List Byte) : Option SearchResult :=
  match tr pc id with
  | none => none
  | some (p, true) => some ⟨p, [], true⟩
  | some (p, false) =>
    let uris := filters.flatMap fun e => (e.2.filter (legacyMatches p)).map fun _ => e.1
    some ⟨p, uris, decide (uris.length = 0)⟩

/-- filtering/legacy_engine.go:181-192 `NewLegacyEngine` -/
def newLegacy (grow : Nat → Nat) (h : Heap) (sub : SliceMap) : Heap × SliceMap := clone grow h sub

end Gosstrak
