import Verif.Model.Splay
import Verif.Spec.Subs

/-!
Specification vocabulary for the splay tree as a stored relation between filters and URIs.
-/
namespace Gosstrak

/-- the reports due when the stored pairs are `S`: the URIs of the filters that start the ID, in
    ascending order of the filters -/
def ReportsFrom (S : Str → Str → Prop) (id : List Byte) (uris : List Str) : Prop :=
  ∃ hits : FlatSubs, (hits.map Prod.fst).Pairwise (· < ·) ∧
    (∀ k u, (k, u) ∈ hits ↔ S k u ∧ k <+: bitsOf id) ∧ uris = hits.map Prod.snd

/-- `b` extends `a` by at least one bit -/
def Extends (a b : Str) : Prop := a <+: b ∧ a ≠ b

/-- Two stored filters extend the stored filter `k`, and no stored filter between them and `k` is
    common to both: `k` has two children. -/
def Forks (S : Str → Str → Prop) (k : Str) : Prop :=
  (∃ u, S k u) ∧ ∃ a b u v, S a u ∧ S b v ∧ Extends k a ∧ Extends k b ∧
    ∀ c w, S c w → Extends k c → ¬ (c <+: a ∧ c <+: b)

/-- no stored filter has two children: the extensions of a stored filter are comparable -/
def NoForks (S : Str → Str → Prop) : Prop :=
  ∀ k a b u v w, S k u → S a v → S b w → Extends k a → Extends k b → a <+: b ∨ b <+: a

/-- a step of a history: the filter of an addition or deletion, or a searched ID -/
inductive SplayStep where
  | add (k uri : Str)
  | delete (k : Str)
  | search (id : List Byte)

/-- The stored pairs after a step. An addition overwrites; a deletion removes, except that a filter
    with two children stays, with the empty URI; a search changes nothing. -/
def PairsAfter (S : Str → Str → Prop) : SplayStep → (Str → Str → Prop)
  | .add k uri => fun k' u => (k' = k ∧ u = uri) ∨ (k' ≠ k ∧ S k' u)
  | .delete k => fun k' u => (k' = k ∧ u = [] ∧ Forks S k) ∨ (k' ≠ k ∧ S k' u)
  | .search _ => S

/-- The steps that the tree handles: a new filter is not a prefix of a stored one; a deletion does
    not take the only filter; when a search is not the last step no filter has two children. -/
def GoodStep (S : Str → Str → Prop) : SplayStep → Prop
  | .add k _ => IsBitStr k ∧ ((∃ u, S k u) ∨ ∀ k' u, S k' u → ¬ k <+: k')
  | .delete k => (∃ k' u, k' ≠ k ∧ S k' u) ∨ ∀ u, ¬ S k u
  | .search id => id ≠ [] ∧ (∀ k u, S k u → k.length ≤ 8 * id.length) ∧ NoForks S

/-- every step is good for the pairs stored at that point -/
def GoodSteps : (Str → Str → Prop) → List SplayStep → Prop
  | _, [] => True
  | S, s :: ss => GoodStep S s ∧ GoodSteps (PairsAfter S s) ss

/-- The steps of a call: the filters in the order of `Keys()`, each with its URI. -/
def stepsOf (mk : Encoder) : SplayCall → List SplayStep
  | .add s => (mapKeys (toByteSubscriptions mk s)).map fun k =>
      .add k ((mapGet (toByteSubscriptions mk s) k).getD [])
  | .delete s => (mapKeys (toByteSubscriptions mk s)).map .delete
  | .search id => [.search id]

/-- The tree `t` is reached from a fresh tree with at least one subscription by calls whose steps are
    all good, and the pairs stored by these steps are `S`. -/
def SplayReached (mk : Encoder) (t : SNode) (S : Str → Str → Prop) : Prop :=
  ∃ (sub : Subs) (calls : List SplayCall) (t0 : SNode), toByteSubscriptions mk sub ≠ [] ∧
    (∀ k u, (k, u) ∈ toByteSubscriptions mk sub → IsBitStr k) ∧
    GoodSteps (fun k u => (k, u) ∈ toByteSubscriptions mk sub) (calls.flatMap (stepsOf mk)) ∧
    newSplay mk sub = some t0 ∧ calls.foldlM (SNode.applyCall mk) t0 = some t ∧
    S = (calls.flatMap (stepsOf mk)).foldl PairsAfter fun k u => (k, u) ∈ toByteSubscriptions mk sub

/-- the ID is not empty and as long as every stored filter -/
def LongEnough (S : Str → Str → Prop) (id : List Byte) : Prop :=
  id ≠ [] ∧ ∀ k u, S k u → k.length ≤ 8 * id.length

/-- all nodes of a tree, as (URI, filter) -/
def SNode.nodes : SNode → List (Str × Option FilterObject)
  | .nil => []
  | .node u f m mm => (u, f) :: (nodes m ++ nodes mm)

end Gosstrak
