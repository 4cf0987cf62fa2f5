import Verif.Model.Memory

/-! What it means that memory holds a tree. -/
namespace Gosstrak

/-- The pointer `p` leads to the tree `t`, made of the nodes at the addresses `d`; no node occurs
    twice. -/
def Holds (h : Mem) : SNode → Option Nat → List Nat → Prop
  | .nil, p, d => p = none ∧ d = []
  | .node u f m mm, p, d => ∃ a pm pmm dm dmm, p = some a ∧ h.get a = some ⟨u, f, pm, pmm⟩ ∧
      Holds h m pm dm ∧ Holds h mm pmm dmm ∧ d = a :: (dm ++ dmm) ∧
      a ∉ dm ∧ a ∉ dmm ∧ ∀ x ∈ dm, x ∉ dmm

/-- The pointer `p` leads to the tree `t` in memory that was handed out. -/
def IsTreeAt (h : Mem) (p : Option Nat) (t : SNode) : Prop :=
  ∃ d, Holds h t p d ∧ ∀ x ∈ d, x < h.next

/-- the node reached from the pointer `p` by the steps `w` (`true` is the first child pointer) -/
def Mem.follow (h : Mem) : Option Nat → List Bool → Option Nat
  | p, [] => p
  | none, _ :: _ => none
  | some a, b :: w => match h.get a with
    | none => none
    | some c => follow h (if b then c.l else c.r) w

/-- the matches a call on a tree gives -/
def SNode.reported (t : SNode) : SplayCall → List Str
  | .search id => ((t.search id).map Prod.fst).getD []
  | _ => []

/-- the matches of the calls of a history of a tree, as far as it does not panic -/
def SNode.results (mk : Encoder) : SNode → List SplayCall → List (List Str)
  | _, [] => []
  | t, c :: cs => t.reported c :: (match t.applyCall mk c with
    | none => []
    | some t' => results mk t' cs)

end Gosstrak
