import Verif.Model.Reload
import Verif.Spec.Gob
import Verif.Spec.Bits

/-!
What loading into an engine in use is about: places in a tree, and fields that gob leaves out.
-/
namespace Gosstrak

/-- URI and filter of the node reached from the root by the branches for a match (`true`) and a mismatch -/
def SNode.place : SNode → List Bool → Option (Str × Option FilterObject)
  | .nil, _ => none
  | .node u f _ _, [] => some (u, f)
  | .node _ _ m _, true :: p => m.place p
  | .node _ _ _ mm, false :: p => mm.place p

/-- URI and filter of the node reached from the root by the branches for one (`true`) and zero -/
def PRaw.place : PRaw → List Bool → Option (Str × Option FilterObject)
  | .nil, _ => none
  | .node u f _ _, [] => some (u, f)
  | .node _ _ one _, true :: p => one.place p
  | .node _ _ _ zero, false :: p => zero.place p

/-- The filter a place has after loading: `old` is what it had, `new` what was saved. -/
inductive Loaded : Option FilterObject → Option FilterObject → Option FilterObject → Prop
  | fresh (f : FilterObject) : Loaded none (some f) (some f)
  | missing (old : Option FilterObject) : Loaded old none old
  /-- a field has the saved value unless that is zero, then the old one -/
  | over (old new got : FilterObject)
      (str : got.str = new.str ∧ new.str ≠ [] ∨ got.str = old.str ∧ new.str = [])
      (size : got.size = new.size ∧ new.size ≠ 0 ∨ got.size = old.size ∧ new.size = 0)
      (offset : got.offset = new.offset ∧ new.offset ≠ 0 ∨ got.offset = old.offset ∧ new.offset = 0)
      (byteFilter : got.byteFilter = new.byteFilter ∧ new.byteFilter ≠ [] ∨
        got.byteFilter = old.byteFilter ∧ new.byteFilter = [])
      (byteMask : got.byteMask = new.byteMask ∧ new.byteMask ≠ [] ∨
        got.byteMask = old.byteMask ∧ new.byteMask = [])
      (byteOffset : got.byteOffset = new.byteOffset ∧ new.byteOffset ≠ 0 ∨
        got.byteOffset = old.byteOffset ∧ new.byteOffset = 0)
      (byteSize : got.byteSize = new.byteSize ∧ new.byteSize ≠ 0 ∨
        got.byteSize = old.byteSize ∧ new.byteSize = 0) :
      Loaded (some old) (some new) (some got)

/-- No field of the old filter is left over when one that `NewFilter` made of the string at the offset is loaded. -/
def NothingLeft (s : Str) (o : Nat) (s' : Str) (o' : Nat) : Prop :=
  (s = [] → s' = []) ∧ (o = 0 → o' = 0) ∧ (o < 8 → o' < 8)

/-- All filters are as `NewFilter` makes them of strings of `0`, `1` and `x`. -/
def SNode.Made (t : SNode) : Prop :=
  ∀ p u f, t.place p = some (u, f) → ∃ s o, IsFilterStr s ∧ f = some (newFilter s o)

/-- the same for a decoded trie -/
def PRaw.Made (t : PRaw) : Prop :=
  ∀ p u f, t.place p = some (u, f) → ∃ s o, IsFilterStr s ∧ f = some (newFilter s o)

end Gosstrak
