import Verif.Model.Splay
import Verif.Model.Patricia

/-!
The comparison of trees which the tests of the package use: `equal` of splay_tree.go and
patricia_trie.go. `reflect.DeepEqual` of two filters is equality in the model; in Go it also tells a nil
slice from an empty one.
-/
namespace Gosstrak

/-- filtering/splay_tree.go:277-301 `equal`: whether they are equal, and otherwise the node got and the
    node wanted; `none` is a nil dereference. -/
def SNode.equal : SNode → SNode → Option (Bool × SNode × SNode)
  | .nil, _ => none
  | .node _ _ _ _, .nil => none
  | .node u f m mm, .node u' f' m' mm' =>
    if u ≠ u' ∨ f ≠ f' then some (false, .node u f m mm, .node u' f' m' mm')
    else
      let r :=
        if m' ≠ .nil then
          if m = .nil then some (false, .nil, m') else m.equal m'
        else some (true, .nil, .nil)
      match r with
      | none => none
      | some (false, g, w) => some (false, g, w)
      | some (true, _, _) =>
        if mm' ≠ .nil then
          if mm = .nil then some (false, .nil, mm') else mm.equal mm'
        else some (true, .nil, .nil)

/-- filtering/patricia_trie.go:361-385 `equal` -/
def PNode.equal : PNode → PNode → Option (Bool × PNode × PNode)
  | .nil, _ => none
  | .node _ _ _ _, .nil => none
  | .node u f one zero, .node u' f' one' zero' =>
    if u ≠ u' ∨ f ≠ f' then some (false, .node u f one zero, .node u' f' one' zero')
    else
      let r :=
        if one' ≠ .nil then
          if one = .nil then some (false, .nil, one') else one.equal one'
        else some (true, .nil, .nil)
      match r with
      | none => none
      | some (false, g, w) => some (false, g, w)
      | some (true, _, _) =>
        if zero' ≠ .nil then
          if zero = .nil then some (false, .nil, zero') else zero.equal zero'
        else some (true, .nil, .nil)

end Gosstrak
