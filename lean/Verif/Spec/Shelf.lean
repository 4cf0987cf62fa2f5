import Verif.Spec.Splay

/-!
What searches do to a splay tree: the stored filters as lists that are tried in order, one outermost and
one behind every filter, and the moves between them. Nothing here refers to nodes of the tree.
-/
namespace Gosstrak

/-- the list behind a filter; `none` gives the outermost list -/
abbrev Shelf := Option Str → List Str

/-- the longest stored filter that `k` extends (extensions come later in key order) -/
def parentOf (b : FlatSubs) (k : Str) : Option Str :=
  ((mapKeys b).filter fun p => p <+: k ∧ p ≠ k).getLast?

/-- where the part of `k` starts that its parent does not have -/
def ownStart (b : FlatSubs) (k : Str) : Nat := ((parentOf b k).map List.length).getD 0

/-- the lists of a fresh tree: the children of each filter in key order -/
def freshShelf (b : FlatSubs) : Shelf := fun a => (mapKeys b).filter fun k => parentOf b k = a

/-- the tag has the own part of `k` at its place -/
def OwnIn (b : FlatSubs) (id : List Byte) (k : Str) : Prop :=
  ∀ i, ownStart b k ≤ i → i < k.length → (bitsOf id)[i]? = k[i]?

/-- the tag ends before `k` does, and has the own part of `k` as far as it goes -/
def OwnCut (b : FlatSubs) (id : List Byte) (k : Str) : Prop :=
  (id = [] ∨ 8 * id.length < k.length) ∧
  ∀ i, ownStart b k ≤ i → i < k.length → i < 8 * id.length → (bitsOf id)[i]? = k[i]?

/-- The search in a list finds these filters: it tries the filters in order, and goes on in the list
    behind the first one whose own part the tag has. A filter whose own part the tag cuts ends it. -/
inductive Walk (b : FlatSubs) (id : List Byte) (v : Shelf) : List Str → List Str → Prop
  | done : Walk b id v [] []
  | miss {k : Str} {l ks : List Str} : ¬ OwnIn b id k → ¬ OwnCut b id k → Walk b id v l ks →
      Walk b id v (k :: l) ks
  | hit {k : Str} {l ks : List Str} : OwnIn b id k → ¬ OwnCut b id k → Walk b id v (v (some k)) ks →
      Walk b id v (k :: l) (k :: ks)

/-- those of the filters found that were not first in their list -/
def moved (v : Shelf) : List Str → List Str → List Str
  | _, [] => []
  | l, k :: ks => (if l.head? = some k then [] else [k]) ++ moved v (v (some k)) ks

/-- They move, with what is behind them, to the front of the outermost list. -/
def Shelf.after (v : Shelf) (ks : List Str) : Shelf
  | none => moved v (v none) ks ++ (v none).filter (· ∉ moved v (v none) ks)
  | some a => (v (some a)).filter (· ∉ moved v (v none) ks)

/-- searches of the tags `ids`, all answered, lead from `v` to `v'` -/
def ShelfRun (b : FlatSubs) : Shelf → List (List Byte) → Shelf → Prop
  | v, [], v' => v' = v
  | v, id :: ids, v' => ∃ ks, Walk b id v (v none) ks ∧ ShelfRun b (v.after ks) ids v'

/-- the tree after searches; `none` is a panic of one of them -/
def SNode.searches (t : SNode) (ids : List (List Byte)) : Option SNode :=
  ids.foldlM (fun t i => (t.search i).map Prod.snd) t

/-- the URI of a stored filter -/
def uriOf (b : FlatSubs) (k : Str) : Str := (mapGet b k).getD []

end Gosstrak
