import Verif.Model.Patricia

namespace Gosstrak

/-- filtering/subscriptions.go:27-31 `PartialSubscription`; a nil and an empty `Subset` are the same
    (only `len` and `range` look at it before it is replaced). -/
inductive PSub where
  | mk (offset : Nat) (uri : Str) (subset : List (Str × PSub))

namespace PSub
def offset : PSub → Nat | .mk o _ _ => o
def uri : PSub → Str | .mk _ u _ => u
def subset : PSub → List (Str × PSub) | .mk _ _ s => s
end PSub

/-- filtering/subscriptions.go:23-24 `ByteSubscriptions` -/
abbrev BSub := List (Str × PSub)

/-- the converted map as `ByteSubscriptions` (subscriptions.go:134-137: offset 0, no subset) -/
def ofFlat (b : FlatSubs) : BSub := b.map fun e => (e.1, .mk 0 e.2 [])

/-- filtering/subscriptions.go:259-284: the inner loop body for the candidate `e` and the key `fs`;
    `rec` is the recursive call at 280, `none` a nil dereference. -/
def linkStep (rec : BSub → Option BSub) (e : Str) (b : BSub) (fs : Str) : Option BSub :=
  if hasPrefix fs e ∧ fs ≠ e then
    match mapGet b e, mapGet b fs with
    | some pe, some pfs =>
      match rec (mapSet pe.subset (fs.drop e.length) (.mk (pfs.offset + e.length) pfs.uri [])) with
      | none => none
      | some s => some (mapDelete (mapSet b e (.mk pe.offset pe.uri s)) fs)
    | _, _ => none
  else some b

/-- filtering/subscriptions.go:243-287 `linkSubset`; only the filters of the `elements` are used.
    The recursion is cut off (`none`) after `fuel` levels; `link_spec` shows that this does not
    happen. -/
def link : Nat → BSub → Option BSub
  | 0, _ => none
  | fuel + 1, b =>
    (mapKeys b).foldlM (fun b e => (mapKeys b).foldlM (linkStep (link fuel) e) b) b

/-- filtering/splay_tree.go:350-352: conversion and `linkSubset` on its result -/
def linkSubset (b : FlatSubs) : Option BSub := link (maxKeyLength b + 2) (ofFlat b)

end Gosstrak
