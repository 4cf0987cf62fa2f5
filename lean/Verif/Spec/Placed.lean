import Verif.Spec.Trie

/-!
The trie under histories with additions inside edges: a filter may end up being looked for at other
places of the ID than it should. Besides its nodes and their URIs, a trie is described by the places
at which the characters of a node are looked for.
-/
namespace Gosstrak

/-- Nodes, the place in the ID of every character of a node, the URI of a node (empty: none). -/
structure PlacedTrie where
  nodes : List Str
  place : Str → List Nat
  stored : Str → Str

/-- the place after the last one -/
def placeAfter (pl : List Nat) : Nat := (pl.getLast?.map (· + 1)).getD 0

/-- the longest of some strings -/
def longest (l : List Str) : Str := l.foldl (fun a b => if a.length < b.length then b else a) []

/-- the common prefix of the nodes that start with `k` -/
def firstAbove (nodes : List Str) (k : Str) : Str := meetAll (nodes.filter fun n => k <+: n)

/-- the common prefix of the nodes that continue `k` -/
def firstBeyond (nodes : List Str) (k : Str) : Str := meetAll (nodes.filter fun n => k <+: n ∧ n ≠ k)

/-- What a call for one filter does.
    Addition: a node gets the URI; a filter inside an edge takes the place of the next node above it, the
    string between is cut out of the nodes above, which keep their places and URIs; any other filter
    becomes a node that leaves its longest common prefix with the nodes, and is looked for at the places
    of this and those that follow.
    Deletion: a node with two branches loses its URI; a node without any disappears unless it is the only
    one; a node with one disappears and the string up to the next node is looked for at the places that
    follow, the rest above where it was. -/
def PlacedTrie.step (v : PlacedTrie) : KeyOp → PlacedTrie
  | .add k uri =>
    if k ∈ v.nodes then ⟨v.nodes, v.place, fun m => if m = k then uri else v.stored m⟩
    else if ∃ n ∈ v.nodes, k <+: n then
      let q := firstAbove v.nodes k
      ⟨v.nodes.map fun m => if q <+: m then k ++ m.drop q.length else m,
       fun m => if k <+: m then
          let l := v.place (q ++ m.drop k.length)
          l.take k.length ++ l.drop q.length
        else v.place m,
       fun m => if m = k then [] else if k <+: m then v.stored (q ++ m.drop k.length) else v.stored m⟩
    else
      let c := longest (v.nodes.map (meet k))
      let l := (v.place (firstAbove v.nodes c)).take c.length
      ⟨k :: c :: v.nodes,
       fun m => if m = k then l ++ List.range' (placeAfter l) (k.length - c.length)
        else if m = c then l else v.place m,
       fun m => if m = k then uri else if m = c ∧ c ∉ v.nodes then [] else v.stored m⟩
  | .delete k =>
    if k ∉ v.nodes ∨ ∀ n ∈ v.nodes, n = k then v
    else if (∃ m ∈ v.nodes, k ++ ['1'] <+: m) ∧ ∃ m ∈ v.nodes, k ++ ['0'] <+: m then
      ⟨v.nodes, v.place, fun m => if m = k then [] else v.stored m⟩
    else if ∃ m ∈ v.nodes, k <+: m ∧ m ≠ k then
      let q := firstBeyond v.nodes k
      ⟨v.nodes.filter (· ≠ k),
       fun m => if q <+: m then
          v.place k ++ List.range' (placeAfter (v.place k)) (q.length - k.length) ++
            (v.place m).drop q.length
        else v.place m,
       v.stored⟩
    else ⟨v.nodes.filter (· ≠ k), v.place, v.stored⟩

/-- a fresh trie looks for every character where it stands -/
def placedFresh (mk : Encoder) (sub : Subs) : PlacedTrie :=
  ⟨(freshView mk sub).nodes, fun m => List.range m.length, fun m => (FreshMap mk sub m).getD []⟩

/-- the trie after a history of calls -/
def placedAfter (mk : Encoder) (sub : Subs) (ops : List SubsOp) : PlacedTrie :=
  (ops.flatMap (keyOps mk)).foldl PlacedTrie.step (placedFresh mk sub)

/-- the ID has the characters of a node at their places, and behind every node on the way the character
    by which the way goes on -/
def PlacedTrie.Passes (v : PlacedTrie) (B m : Str) : Prop :=
  (∀ (i p : Nat), (v.place m)[i]? = some p → B[p]? = m[i]?) ∧
  ∀ n ∈ v.nodes, n <+: m → n ≠ m → B[placeAfter (v.place n)]? = m[n.length]?

/-- the reports given: the URIs of the nodes whose tests the ID passes, each node starting the next -/
def PlacedTrie.Reports (v : PlacedTrie) (id : List Byte) (uris : List Str) : Prop :=
  ∃ hits : FlatSubs, (hits.map Prod.fst).Pairwise (fun a b => a <+: b ∧ a ≠ b) ∧
    (∀ m u, (m, u) ∈ hits ↔ m ∈ v.nodes ∧ v.stored m = u ∧ u ≠ [] ∧ v.Passes (bitsOf id) m) ∧
    uris = hits.map Prod.snd

/-- a search reaches beyond the end of the ID: the ID has the characters of a node at those places that
    it has at all, and the forks on the way, and lacks some place -/
def PlacedTrie.Overruns (v : PlacedTrie) (id : List Byte) : Prop :=
  id = [] ∨ ∃ m ∈ v.nodes,
    (∀ (i p : Nat), (v.place m)[i]? = some p → p < 8 * id.length → (bitsOf id)[p]? = m[i]?) ∧
    (∀ n ∈ v.nodes, n <+: m → n ≠ m → (bitsOf id)[placeAfter (v.place n)]? = m[n.length]?) ∧
    ∃ p ∈ v.place m, 8 * id.length ≤ p

end Gosstrak
