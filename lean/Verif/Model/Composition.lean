import Verif.Model.Filter
import Verif.Model.Subs

/-!
`filtering/composition.go`
-/
namespace Gosstrak

/-- filtering/composition.go:16-24 `Composition` and `ChildFilters`; the fields `filter`, `offset`,
    `children` -/
structure Composition where
  filter : Str
  offset : Nat
  children : List (Str × FilterObject)
deriving DecidableEq, Repr

/-- `binutil.ParseByteSliceToBinString([]byte{b})`: eight runes, most significant first (external,
    modelled from its name, its uses here and composition_test.go) -/
def byteStr (b : Byte) : Str := (List.range 8).map fun j => if b.getMsbD j then '1' else '0'

/-- the loops at composition.go:71-75 and 129-133: an `x` wherever the second string has a `1` -/
def wildcards (s m : Str) : Str := List.zipWith (fun c d => if d = '1' then 'x' else c) s m

/-- filtering/composition.go:126-135 `processWildcard` -/
def processWildcard (b m : Byte) : Str := wildcards (byteStr b) (byteStr (b &&& m))

/-- filtering/composition.go:31-40: `head`, `none` for its initial -1 -/
def headLoop (head : Option Nat) (f : FilterObject) : Option Nat :=
  match head with
  | none => some f.byteOffset
  | some h => if f.byteOffset > h then some f.byteOffset else some h

/-- filtering/composition.go:31-40: `tail`, `none` for its initial -1 -/
def tailLoop (tail : Option Nat) (f : FilterObject) : Option Nat :=
  match tail with
  | none => some (f.byteOffset + f.byteSize)
  | some t => if f.byteOffset + f.byteSize < t then some (f.byteOffset + f.byteSize) else some t

/-- filtering/composition.go:48-51 (`field` is `ByteMask` or `ByteFilter`): the inner loop for one
    filter; `none` is an index out of range -/
def orBytes (field : FilterObject → List Byte) (head n : Nat) (acc : List Byte) (f : FilterObject) :
    Option (List Byte) :=
  (List.range n).mapM fun i => do
    let a ← acc[i]?
    let b ← (field f)[head - f.byteOffset + i]?
    some (a ||| b)

/-- filtering/composition.go:59-62: the inner loop for one filter `ff` and the first one, `f` -/
def xorBytes (f : FilterObject) (head n : Nat) (acc : List Byte) (ff : FilterObject) :
    Option (List Byte) :=
  (List.range n).mapM fun i => do
    let a ← acc[i]?
    let b ← f.byteFilter[head - f.byteOffset + i]?
    let c ← ff.byteFilter[head - ff.byteOffset + i]?
    some (a ||| (b ^^^ c))

/-- filtering/composition.go:92-112: the loop over the bytes of one filter, from byte `i` on, with
    `nfString` and `nfOffset`; `cf` is the composite filter -/
def childLoop (cf f : FilterObject) (head tail : Nat) :
    Nat → List Byte → Str → Nat → Option (Str × Nat)
  | _, [], nf, off => some (nf, off)
  | i, b :: bs, nf, off =>
    let o := f.byteOffset + i
    if o < head then
      match f.byteMask[i]? with
      | none => none
      | some m => childLoop cf f head tail (i + 1) bs (nf ++ processWildcard b m)
          (if nf.length = 0 then f.byteOffset * 8 else off)
    else if o < tail then
      match cf.byteFilter[o - head]?, cf.byteMask[o - head]?, f.byteMask[i]? with
      | some cb, some cm, some m =>
        childLoop cf f head tail (i + 1) bs
          (nf ++ if cb ^^^ b = 0#8 ∧ cm ^^^ m = 0#8 then List.replicate 8 'x' else processWildcard b m)
          (if nf.length = 0 then o * 8 else off)
      | _, _, _ => none
    else
      match f.byteMask[i]? with
      | none => none
      | some m => childLoop cf f head tail (i + 1) bs (nf ++ processWildcard b m) off

/-- filtering/composition.go:91-114: one child filter, stored under the string of the original -/
def childStep (cf : FilterObject) (head tail : Nat) (children : List (Str × FilterObject))
    (f : FilterObject) : Option (List (Str × FilterObject)) :=
  (childLoop cf f head tail 0 f.byteFilter [] 0).map fun r =>
    mapSet children f.str (newFilter r.1 r.2)

/-- filtering/composition.go:27-122 `NewComposition`; `none` is a panic. `make([]byte, tail-head)`
    panics for a negative length, `filters[0]` for an empty slice. -/
def newComposition (filters : List FilterObject) : Option Composition :=
  match filters, filters.foldl headLoop none, filters.foldl tailLoop none with
  | f :: rest, some head, some tail =>
    if tail < head then none
    else do
      let n := tail - head
      let disjunct ← filters.foldlM (orBytes (·.byteFilter) head n) (List.replicate n 0#8)
      let pmask ← filters.foldlM (orBytes (·.byteMask) head n) (List.replicate n 0#8)
      let xmask ← rest.foldlM (xorBytes f head n) (List.replicate n 0#8)
      let cfString := (List.range n).flatMap fun i => wildcards (byteStr (disjunct[i]?.getD 0#8))
        (byteStr (pmask[i]?.getD 0#8 ||| xmask[i]?.getD 0#8))
      let children ← filters.foldlM (childStep (newFilter cfString (head * 8)) head tail) []
      some ⟨cfString, head * 8, children⟩
  | _, _, _ => none

/-- filtering/composition.go:142-151: the loop body of `groupSequentialSlice` -/
def groupStep (st : List (List Int) × List Int) (r : Int) : List (List Int) × List Int :=
  match st.2.getLast? with
  | none => (st.1, [r])
  | some l => if l + 1 = r then (st.1, st.2 ++ [r]) else (st.1 ++ [st.2], [r])

/-- filtering/composition.go:139-154 `groupSequentialSlice` -/
def groupSequentialSlice (rs : List Int) : List (List Int) :=
  let st := rs.foldl groupStep ([], [])
  st.1 ++ [st.2]

end Gosstrak
