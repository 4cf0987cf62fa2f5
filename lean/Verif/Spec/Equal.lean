import Verif.Model.Equal

/-! Specification vocabulary for the comparison of trees. -/
namespace Gosstrak

/-- `s` is `t` with some subtrees cut off. -/
inductive SNode.Cut : SNode → SNode → Prop
  | nil (t : SNode) : SNode.Cut .nil t
  | node (u : Str) (f : Option FilterObject) {m mm m' mm' : SNode} :
      SNode.Cut m m' → SNode.Cut mm mm' → SNode.Cut (.node u f m mm) (.node u f m' mm')

/-- the node at a path, `true` being the matching child -/
def SNode.sub : SNode → List Bool → SNode
  | t, [] => t
  | .nil, _ :: _ => .nil
  | .node _ _ m mm, b :: p => if b then m.sub p else mm.sub p

/-- what a node holds -/
def SNode.label : SNode → Option (Str × Option FilterObject)
  | .nil => none
  | .node u f _ _ => some (u, f)

/-- `s` is `t` with some subtrees cut off. -/
inductive PNode.Cut : PNode → PNode → Prop
  | nil (t : PNode) : PNode.Cut .nil t
  | node (u : Str) (f : FilterObject) {one zero one' zero' : PNode} :
      PNode.Cut one one' → PNode.Cut zero zero' → PNode.Cut (.node u f one zero) (.node u f one' zero')

/-- the node at a path, `true` being the child for 1 -/
def PNode.sub : PNode → List Bool → PNode
  | t, [] => t
  | .nil, _ :: _ => .nil
  | .node _ _ one zero, b :: p => if b then one.sub p else zero.sub p

/-- what a node holds -/
def PNode.label : PNode → Option (Str × FilterObject)
  | .nil => none
  | .node u f _ _ => some (u, f)

/-- The paths visited before `p`: those that `p` continues, and those that branch off to the first child
    where `p` goes to the second. -/
def Before : List Bool → List Bool → Prop
  | [], _ :: _ => True
  | b :: q, c :: p => (b = true ∧ c = false) ∨ (b = c ∧ Before q p)
  | _, [] => False

end Gosstrak
