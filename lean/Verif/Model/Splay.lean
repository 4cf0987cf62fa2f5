import Verif.Model.Linked

namespace Gosstrak

/-- filtering/splay_tree.go:28-33 `SplayTreeNode`; `nil` is the nil pointer, `f = none` a nil
    `filterObject`; `m` is `matchNext`, `mm` is `mismatchNext`. -/
inductive SNode where
  | nil
  | node (uri : Str) (f : Option FilterObject) (m mm : SNode)
deriving DecidableEq, Repr

namespace SNode

/-- filtering/splay_tree.go:216-231: the node for the key `fs`, followed by `next`; `rec` is the
    recursive call at 222 -/
def buildStep (rec : BSub → SNode) (b : BSub) (fs : Str) (next : SNode) : SNode :=
  match mapGet b fs with
  | some p => .node p.uri (some (newFilter fs p.offset))
      (if p.subset.length ≠ 0 then rec p.subset else .nil) next
  | none => next

/-- filtering/splay_tree.go:212-233 `build` on a non-empty map: one node per key in key order, linked
    by `mismatchNext`. Nesting deeper than `fuel` would be cut off; `sbuild_spec` (Proofs/Splay)
    shows that this does not happen. -/
def build : Nat → BSub → SNode
  | 0, _ => .nil
  | fuel + 1, b => (mapKeys b).foldr (buildStep (build fuel) b) .nil

/-- filtering/splay_tree.go:319-342 `splaySearch` on the subtree `t`. `first` says that `parent` is
    nil. The result: the matches; what the pointer to `t` (of the parent, or of the enclosing node)
    leads to afterwards; the nodes made the new root one after another (their `mm` is set when they
    are attached, see `attach`). `none` is a panic. -/
def splaySearch : SNode → Bool → List Byte → Option (List Str × SNode × List (Str × Option FilterObject × SNode))
  | .nil, _, _ => none
  | .node _ none _ _, _, _ => none
  | .node u (some f) m mm, first, id =>
    match f.matchID id with
    | none => none
    | some true =>
      match (if m = .nil then some ([], .nil, []) else m.splaySearch true id) with
      | none => none
      | some (ms, m', lifted) =>
        if first then some (u :: ms, .node u (some f) m' mm, lifted)
        else some (u :: ms, mm, lifted ++ [(u, some f, m')])
    | some false =>
      if mm = .nil then some ([], .node u (some f) m mm, [])
      else match mm.splaySearch false id with
        | none => none
        | some (ms, mm', lifted) => some (ms, .node u (some f) m mm', lifted)

/-- filtering/splay_tree.go:333-335: insertion as the new root -/
def attach (root : SNode) (n : Str × Option FilterObject × SNode) : SNode :=
  .node n.1 n.2.1 n.2.2 root

/-- filtering/splay_tree.go:79: the call of `splaySearch` on the root; matches and new tree -/
def search (t : SNode) (id : List Byte) : Option (List Str × SNode) :=
  match t.splaySearch true id with
  | none => none
  | some (ms, t', lifted) => some (ms, lifted.foldl attach t')

/-- filtering/splay_tree.go:184-210 `add`; `none` is a nil dereference. -/
def add : SNode → Str → Str → Option SNode
  | .nil, _, _ => none
  | .node _ none _ _, _, _ => none
  | .node u (some f) m mm, fs, uri =>
    if hasPrefix fs f.str then
      if fs = f.str then some (.node (if u ≠ uri then uri else u) (some f) m mm)
      else if m = .nil then
        some (.node u (some f)
          (.node uri (some (newFilter (fs.drop f.size) (f.offset + f.size))) .nil .nil) mm)
      else (m.add (fs.drop f.size) uri).map fun m' => .node u (some f) m' mm
    else
      if mm = .nil then some (.node u (some f) m (.node uri (some (newFilter fs f.offset)) .nil .nil))
      else (mm.add fs uri).map fun mm' => .node u (some f) m mm'

/-- filtering/splay_tree.go:255-257, 265-267: is the pointer to a leaf with filter string `s`?
    `none` is a nil dereference of the node's filter. -/
def isLeafWith (n : SNode) (s : Str) : Option Bool :=
  match n with
  | .node _ (some f) m mm => some (decide (s = f.str ∧ m = .nil ∧ mm = .nil))
  | _ => none

/-- filtering/splay_tree.go:236-275 `delete`. The `reportURI` argument is never used there. -/
def delete : SNode → Str → Option SNode
  | .nil, _ => none
  | .node _ none _ _, _ => none
  | .node u (some f) m mm, fs =>
    if hasPrefix fs f.str then
      if fs = f.str then
        match m, mm with
        | .nil, .nil => some (.node u (some f) m mm)
        | .node u1 f1 m1 mm1, _ =>
          if mm1 ≠ .nil then some (.node [] (some f) m mm)
          else f1.map fun f1 => .node u1 (some (newFilter (fs ++ f1.str) f.offset)) m1 mm
        | .nil, .node u2 f2 m2 mm2 => some (.node u2 f2 m2 mm2)
      else if m = .nil then some (.node u (some f) m mm)
      else
        match m.isLeafWith (fs.drop f.size) with
        | none => none
        | some true => some (.node u (some f) .nil mm)
        | some false => (m.delete (fs.drop f.size)).map fun m' => .node u (some f) m' mm
    else if mm = .nil then some (.node u (some f) m mm)
    else
      match mm.isLeafWith fs with
      | none => none
      | some true => some (.node u (some f) m .nil)
      | some false => (mm.delete fs).map fun mm' => .node u (some f) m mm'

end SNode

/-- filtering/splay_tree.go:346-362 `NewSplayTree`, from the converted map. Without any key the loop
    of `build` leaves the node as allocated: no URI, a nil filter. -/
def newSplayFrom (b : FlatSubs) : Option SNode :=
  (linkSubset b).map fun l =>
    if l.length = 0 then .node [] none .nil .nil else SNode.build (maxKeyLength b + 2) l

/-- filtering/splay_tree.go:346-362 `NewSplayTree` -/
def newSplay (mk : Encoder) (sub : Subs) : Option SNode := newSplayFrom (toByteSubscriptions mk sub)

/-- filtering/splay_tree.go:78-85 `Search`: the result and the tree afterwards -/
def SNode.searchEngine (t : SNode) (tr : Translator) (pc id : List Byte) : Option (SearchResult × SNode) :=
  match t.search id with
  | none => none
  | some (uris, t') => (finishSearch tr pc id uris).map fun r => (r, t')

/-- filtering/splay_tree.go:36-41 `AddSubscription` -/
def SNode.addSubscription (mk : Encoder) (t : SNode) (sub : Subs) : Option SNode :=
  let bsub := toByteSubscriptions mk sub
  (mapKeys bsub).foldlM (fun t fs => t.add fs ((mapGet bsub fs).getD [])) t

/-- filtering/splay_tree.go:44-49 `DeleteSubscription` -/
def SNode.deleteSubscription (mk : Encoder) (t : SNode) (sub : Subs) : Option SNode :=
  (mapKeys (toByteSubscriptions mk sub)).foldlM SNode.delete t

/-- a call on the engine -/
inductive SplayCall where
  | add (s : Subs)
  | delete (s : Subs)
  | search (id : List Byte)

/-- filtering/splay_tree.go:36-49, 78-79: the tree after a call; `none` is a panic. A search changes
    the tree before it translates the ID, so the translation is left out here. -/
def SNode.applyCall (mk : Encoder) (t : SNode) : SplayCall → Option SNode
  | .add s => t.addSubscription mk s
  | .delete s => t.deleteSubscription mk s
  | .search id => (t.search id).map Prod.snd

end Gosstrak
