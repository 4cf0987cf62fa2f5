import Verif.Model.Subs

/-!
Slices of strings with their backing arrays, for the code in which sharing matters
(`Subscriptions.Clone`, `LegacyEngine`).
-/
namespace Gosstrak

/-- the backing arrays; an array is never freed, its size never changes -/
abbrev Heap := List (List Str)

/-- a slice header; the capacity reaches to the end of the array (no three-index slices in /repo) -/
structure Slice where
  arr : Nat
  off : Nat
  len : Nat
deriving DecidableEq, Repr

namespace Heap

/-- contents of the array `a` -/
def arrayAt (h : Heap) (a : Nat) : List Str := (h[a]?).getD []

/-- the elements of a slice -/
def view (h : Heap) (s : Slice) : List Str := ((h.arrayAt s.arr).drop s.off).take s.len

/-- `append(s, v)`: in place if the capacity suffices, else in a new array with `grow` spare elements
    (Go does not say how many) -/
def append (grow : Nat → Nat) (h : Heap) (s : Slice) (v : Str) : Heap × Slice :=
  if s.off + s.len < (h.arrayAt s.arr).length then
    (h.modify s.arr (·.set (s.off + s.len) v), { s with len := s.len + 1 })
  else (h ++ [h.view s ++ [v] ++ List.replicate (grow s.len) []], ⟨h.length, 0, s.len + 1⟩)

/-- `append(s[:i], s[i+1:]...)` for `i < len(s)`: always in place -/
def removeAt (h : Heap) (s : Slice) (i : Nat) : Heap × Slice :=
  (h.modify s.arr fun a => a.take (s.off + i) ++ (h.view s).drop (i + 1) ++ a.drop (s.off + (s.len - 1)),
    { s with len := s.len - 1 })

/-- `s[i] = v` for `i < len(s)` -/
def write (h : Heap) (s : Slice) (i : Nat) (v : Str) : Heap := h.modify s.arr (·.set (s.off + i) v)

/-- a slice literal: a new array -/
def alloc (h : Heap) (a : List Str) : Heap × Slice := (h ++ [a], ⟨h.length, 0, a.length⟩)

end Heap

/-- a map from strings to slices (filtering/subscriptions.go:34 `Subscriptions`) -/
abbrev SliceMap := List (Str × Slice)

/-- the contents of a map of slices -/
def Heap.viewMap (h : Heap) (m : SliceMap) : Subs := m.map fun e => (e.1, h.view e.2)

/-- filtering/subscriptions.go:40-42: the inner loop of `Clone`, `j` the index into `sub[f]` -/
def cloneElem (grow : Nat → Nat) (s : Slice) (st : Heap × Slice) (j : Nat) : Heap × Slice :=
  st.1.append grow st.2 (((st.1.view s)[j]?).getD [])

/-- filtering/subscriptions.go:38-43: one key. The slice is stored under the key after every append;
    only the last value matters. -/
def cloneKey (grow : Nat → Nat) (sub : SliceMap) (st : Heap × SliceMap) (f : Str) : Heap × SliceMap :=
  match mapGet sub f with
  | none => st
  | some s =>
    let r := (List.range s.len).foldl (cloneElem grow s) (st.1.alloc [])
    (r.1, mapSet st.2 f r.2)

/-- filtering/subscriptions.go:37-46 `Clone` -/
def clone (grow : Nat → Nat) (h : Heap) (sub : SliceMap) : Heap × SliceMap :=
  (mapKeys sub).foldl (cloneKey grow sub) (h, [])

end Gosstrak
