import Verif.Model.Go
import Verif.Spec.Bits

/-! Specification vocabulary for common prefixes. -/
namespace Gosstrak

/-- The strings of `l` that start with `w` have no longer common start. -/
def NoLonger (l : List Str) (w : Str) : Prop :=
  ∀ q, (∀ s ∈ l, w <+: s → q <+: s) → q <+: w

/-- In the tree of the strings `l`: from the word `P` of bits, which starts two or more of them, all
    go on to `p`, where they part, and at every node above `P` they part at once. -/
def IsGroup (l : List Str) (p : Str) : Prop :=
  ∃ P, IsBitStr P ∧ P <+: p ∧ P ≠ p ∧ 2 ≤ l.countP (fun s => decide (P <+: s)) ∧
    (∀ s ∈ l, P <+: s → p <+: s) ∧ NoLonger l p ∧ ∀ w, w <+: P → w ≠ P → NoLonger l w

end Gosstrak
