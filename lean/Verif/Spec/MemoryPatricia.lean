import Verif.Model.MemoryPatricia
import Verif.Spec.Memory

namespace Gosstrak

/-- A Patricia trie as a tree of cells: every node has a filter. -/
def PNode.cells : PNode → SNode
  | .nil => .nil
  | .node u f one zero => .node u (some f) one.cells zero.cells

end Gosstrak
