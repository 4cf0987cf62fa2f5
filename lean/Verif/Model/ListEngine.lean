import Verif.Model.Filter
import Verif.Model.Subs

namespace Gosstrak

/-- `tdt.Core.Translate` as seen from the engines: pure identity and whether an error was returned;
    `none` is a panic. (Modelled in `Verif.Model.Translate`.) -/
abbrev Translator := List Byte → List Byte → Option (Str × Bool)

/-- the three results of `Engine.Search` (filtering/engine.go:19-29) -/
structure SearchResult where
  pureIdentity : Str
  reportURIs : List Str
  err : Bool
deriving DecidableEq, Repr

/-- the common tail of the `Search` methods of the byte engines: filtering/list.go:115-119,
    patricia_trie.go:80-84, splay_tree.go:80-84. -/
def finishSearch (tr : Translator) (pc id : List Byte) (uris : List Str) : Option SearchResult :=
  if uris.length = 0 then some ⟨[], uris, true⟩
  else match tr pc id with
    | none => none
    | some (p, e) => some ⟨p, uris, e⟩

/-- filtering/list.go:18-31 `List`: the slice of `ExactMatch` -/
abbrev ListEngine := List (FilterObject × Str)

/-- filtering/list.go:110-114: the loop of `Search`; `none` is a panic in `Match`. -/
def ListEngine.matches : ListEngine → List Byte → Option (List Str)
  | [], _ => some []
  | (f, u) :: l, id =>
    match f.matchID id with
    | none => none
    | some b => (ListEngine.matches l id).map fun r => if b then u :: r else r

/-- filtering/list.go:109-120 `Search` -/
def ListEngine.search (l : ListEngine) (tr : Translator) (pc id : List Byte) : Option SearchResult :=
  match l.matches id with
  | none => none
  | some uris => finishSearch tr pc id uris

/-- filtering/list.go:65-72 `IndexOf`: position of the first deeply equal element -/
def ListEngine.indexOf (l : ListEngine) (em : FilterObject × Str) : Option Nat :=
  match l with
  | [] => none
  | a :: l => if a = em then some 0 else (ListEngine.indexOf l em).map (· + 1)

/-- filtering/list.go:34-46, 49-61, 157-174: the `ExactMatch`es made from a converted map, in key
    order. (A missing key cannot occur: the keys come from the same map.) -/
def exactMatches (bsub : FlatSubs) : ListEngine :=
  (mapKeys bsub).filterMap fun fs => (mapGet bsub fs).map fun u => (newFilter fs 0, u)

/-- filtering/list.go:36-45 loop body of `AddSubscription` -/
def ListEngine.addOne (l : ListEngine) (em : FilterObject × Str) : ListEngine :=
  match l.indexOf em with
  | none => l ++ [em]
  | some _ => l

/-- filtering/list.go:52-60 loop body of `DeleteSubscription` -/
def ListEngine.deleteOne (l : ListEngine) (em : FilterObject × Str) : ListEngine :=
  match l.indexOf em with
  | none => l
  | some i => l.take i ++ l.drop (i + 1)

/-- filtering/list.go:34-46 `AddSubscription` -/
def ListEngine.addSubscription (mk : Encoder) (l : ListEngine) (sub : Subs) : ListEngine :=
  (exactMatches (toByteSubscriptions mk sub)).foldl ListEngine.addOne l

/-- filtering/list.go:49-61 `DeleteSubscription` -/
def ListEngine.deleteSubscription (mk : Encoder) (l : ListEngine) (sub : Subs) : ListEngine :=
  (exactMatches (toByteSubscriptions mk sub)).foldl ListEngine.deleteOne l

/-- filtering/list.go:157-174 `NewList` -/
def newList (mk : Encoder) (sub : Subs) : ListEngine :=
  exactMatches (toByteSubscriptions mk sub)

/-- a call that changes the subscriptions of an engine -/
inductive SubsOp where
  | add (sub : Subs)
  | delete (sub : Subs)

/-- a call on the List engine -/
def ListEngine.apply (mk : Encoder) (l : ListEngine) : SubsOp → ListEngine
  | .add s => l.addSubscription mk s
  | .delete s => l.deleteSubscription mk s

end Gosstrak
