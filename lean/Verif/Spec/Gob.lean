import Verif.Model.Gob
import Verif.Spec.Subs

/-!
What persistence is about: which engine wrote a stream, shapes of tries, nested maps.
-/
namespace Gosstrak

inductive EngineKind where
  | list | legacy | patricia | splay
deriving DecidableEq, Repr

/-- The stream was written by `MarshalBinary` of an engine of this kind. -/
def Encoded : EngineKind → List Tok → Prop
  | .list, d => ∃ l, d = marshalList l
  | .legacy, d => ∃ sub, d = marshalLegacy sub
  | .patricia, d => ∃ t, marshalPatricia t = some d
  | .splay, d => ∃ t, marshalSplay t = some d

/-- A trie as a decoder would see it: every node has a filter. -/
def PNode.raw : PNode → PRaw
  | .nil => .nil
  | .node u f one zero => .node u (some f) one.raw zero.raw

/-- Some node has a zero child but no one child. -/
def PNode.HasLoneZero : PNode → Prop
  | .nil => False
  | .node _ _ one zero => (one = .nil ∧ zero ≠ .nil) ∨ one.HasLoneZero ∨ zero.HasLoneZero

/-- Every node has both children or none. -/
def PNode.Full : PNode → Prop
  | .nil => True
  | .node _ _ one zero => (one = .nil ↔ zero = .nil) ∧ one.Full ∧ zero.Full

/-- The trie without the subtrees below a lone zero branch. -/
def PNode.prune : PNode → PNode
  | .nil => .nil
  | .node u f one zero => .node u f one.prune (if one = .nil then .nil else zero.prune)

/-- Following the zero branches from the root, as long as there are both branches, one arrives at a
    node with a one child only. -/
inductive PNode.EndsLoneOne : PNode → Prop
  | here (u : Str) (f : FilterObject) (one : PNode) : one ≠ .nil → EndsLoneOne (.node u f one .nil)
  | down (u : Str) (f : FilterObject) (one zero : PNode) : one ≠ .nil → EndsLoneOne zero →
      EndsLoneOne (.node u f one zero)

mutual
/-- All nested maps have distinct keys. -/
def PSub.Maps : PSub → Prop
  | .mk _ _ s => IsMap s ∧ BSubMaps s
/-- the same for the values of a map -/
def BSubMaps : List (Str × PSub) → Prop
  | [] => True
  | (_, p) :: s => p.Maps ∧ BSubMaps s
end

end Gosstrak
