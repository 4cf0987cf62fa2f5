import Verif.Model.ListEngine
import Verif.Spec.Subs

/-!
Specification vocabulary for engines that are updated: the stored map from filters to URIs, and
what a search owes for it.
-/
namespace Gosstrak

/-- every report URI of the map is a non-empty string -/
def UrisNonEmpty (sub : Subs) : Prop := ∀ e ∈ sub, e.1 ≠ []

/-- the reports due when the stored map is `S`: the URIs of the filters that start the ID, in
    ascending order of the filters -/
def ReportsOf (S : Str → Option Str) (id : List Byte) (uris : List Str) : Prop :=
  ∃ hits : FlatSubs, (hits.map Prod.fst).Pairwise (· < ·) ∧
    (∀ k u, (k, u) ∈ hits ↔ S k = some u ∧ k <+: bitsOf id) ∧ uris = hits.map Prod.snd

/-- The stored map after a call: additions overwrite, deletions remove by filter. -/
def MapAfter (mk : Encoder) (S : Str → Option Str) : SubsOp → (Str → Option Str)
  | .add s => fun k => (mapGet (toByteSubscriptions mk s) k).or (S k)
  | .delete s => fun k => if (mapGet (toByteSubscriptions mk s) k).isSome then none else S k

/-- what a fresh trie stores (see C18: not the common prefix of all filters) -/
def FreshMap (mk : Encoder) (sub : Subs) : Str → Option Str := fun k =>
  if k = lcp (mapKeys (toByteSubscriptions mk sub)) then none
  else mapGet (toByteSubscriptions mk sub) k

/-- the filters a call mentions when it adds -/
def AddedKeys (mk : Encoder) : SubsOp → List Str
  | .add s => mapKeys (toByteSubscriptions mk s)
  | .delete _ => []

/-- The histories that the trie handles. `W`: the filters given so far (deleted or not). A new filter
    is not a proper prefix of one of those, and no deletion empties the trie. -/
def Benign (mk : Encoder) : (Str → Option Str) → List Str → List SubsOp → Prop
  | _, _, [] => True
  | S, W, op :: ops =>
    (match op with
      | .add s => UrisNonEmpty s ∧ ∀ k ∈ mapKeys (toByteSubscriptions mk s), IsBitStr k ∧
          ∀ w ∈ W, k <+: w → k = w
      | .delete s => (∀ k ∈ mapKeys (toByteSubscriptions mk s), IsBitStr k) ∧
          ((∃ k u, MapAfter mk S op k = some u) ∨
            ∀ k ∈ mapKeys (toByteSubscriptions mk s), S k = none)) ∧
    Benign mk (MapAfter mk S op) (W ++ AddedKeys mk op) ops

/-! ### The trie seen from outside -/

/-- the longest common prefix of two strings -/
def meet : Str → Str → Str
  | a :: s, b :: t => if a = b then a :: meet s t else []
  | _, _ => []

/-- the longest common prefix of some strings -/
def meetAll : List Str → Str
  | [] => []
  | k :: ks => ks.foldl meet k

/-- a call for one filter -/
inductive KeyOp where
  | add (k uri : Str)
  | delete (k : Str)

/-- the calls for single filters that a call for a set of subscriptions consists of -/
def keyOps (mk : Encoder) : SubsOp → List KeyOp
  | .add s => (mapKeys (toByteSubscriptions mk s)).map fun k =>
      .add k ((mapGet (toByteSubscriptions mk s) k).getD [])
  | .delete s => (mapKeys (toByteSubscriptions mk s)).map .delete

/-- The strings at which a trie has its nodes, and the stored map. -/
structure TrieView where
  nodes : List Str
  stored : Str → Option Str

/-- the new filter ends strictly inside an edge -/
def InsideEdge (nodes : List Str) (k : Str) : Prop := k ∉ nodes ∧ ∃ n ∈ nodes, k <+: n

instance (nodes : List Str) (k : Str) : Decidable (InsideEdge nodes k) := by
  unfold InsideEdge; infer_instance

/-- An addition makes a node for the filter and for its common prefixes with other nodes. A deletion
    takes the node away unless it has two branches; if it is the only one, nothing happens. -/
def TrieView.step (v : TrieView) : KeyOp → TrieView
  | .add k uri => ⟨k :: v.nodes ++ v.nodes.map (meet k), fun q => if q = k then some uri else v.stored q⟩
  | .delete k =>
    if ∀ n ∈ v.nodes, n = k then v
    else ⟨v.nodes.filter fun n => n ≠ k ∨
        ((∃ m ∈ v.nodes, k ++ ['1'] <+: m) ∧ ∃ m ∈ v.nodes, k ++ ['0'] <+: m),
      fun q => if q = k then none else v.stored q⟩

/-- a fresh trie has nodes for the filters, their common prefixes and the common prefix of all -/
def freshView (mk : Encoder) (sub : Subs) : TrieView :=
  let keys := mapKeys (toByteSubscriptions mk sub)
  ⟨meetAll keys :: keys ++ keys.flatMap fun a => keys.map (meet a), FreshMap mk sub⟩

/-- no addition ends strictly inside an edge -/
def Intact : TrieView → List KeyOp → Prop
  | _, [] => True
  | v, .add k uri :: ops => IsBitStr k ∧ uri ≠ [] ∧ ¬ InsideEdge v.nodes k ∧ Intact (v.step (.add k uri)) ops
  | v, .delete k :: ops => IsBitStr k ∧ Intact (v.step (.delete k)) ops

instance decIntact : ∀ (v : TrieView) (ops : List KeyOp), Decidable (Intact v ops)
  | _, [] => by unfold Intact; infer_instance
  | v, .add k uri :: ops => by
    unfold Intact
    have := decIntact (v.step (.add k uri)) ops
    infer_instance
  | v, .delete k :: ops => by
    unfold Intact
    have := decIntact (v.step (.delete k)) ops
    infer_instance

/-- the reports given when a filter `k` was put inside the edge that leads to the node `q`: those of
    the filters that do not start with `k` as they should be; of the others those that continue `q` by
    the bit after `k` in the ID and agree with the ID from there on, whatever the ID has between
    `k` and `q` -/
def ReportsDamaged (S : Str → Option Str) (k q : Str) (id : List Byte) (uris : List Str) : Prop :=
  ∃ hits : FlatSubs, (hits.map Prod.fst).Pairwise (· < ·) ∧
    (∀ w u, (w, u) ∈ hits ↔ S w = some u ∧
      if k <+: w then k <+: bitsOf id ∧ w[q.length]? = (bitsOf id)[k.length]? ∧
        w.drop q.length <+: (bitsOf id).drop q.length
      else w <+: bitsOf id) ∧ uris = hits.map Prod.snd

end Gosstrak
