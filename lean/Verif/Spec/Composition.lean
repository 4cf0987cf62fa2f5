import Verif.Spec.Bits

/-!
Specification vocabulary for composed filters, independent of bytes and masks.
-/
namespace Gosstrak

/-- What the string `s`, placed at bit `o`, requires of bit `p` of an ID: a value, or nothing. -/
def required (s : Str) (o p : Nat) : Option Bool :=
  if o ≤ p then
    match s[p - o]? with
    | some c => if c = 'x' then none else some (decide (c = '1'))
    | none => none
  else none

/-- The string `s`, placed at bit `o`, touches byte `k` of an ID. (An empty string counts as touching
    the byte it is placed in.) -/
def Touches (s : Str) (o k : Nat) : Prop :=
  (o / 8 = k ∧ s = []) ∨ ∃ i, i < s.length ∧ (o + i) / 8 = k

/-- In the list of placed strings `(s, o)` is the last entry with the string `s`. -/
def LastAt (fs : List (Str × Nat)) (s : Str) (o : Nat) : Prop :=
  ∃ l1 l2, fs = l1 ++ (s, o) :: l2 ∧ ∀ o', (s, o') ∉ l2

/-- consecutive integers -/
def Consecutive (g : List Int) : Prop := ∀ i a b, g[i]? = some a → g[i + 1]? = some b → b = a + 1

/-- The groups are runs of consecutive integers that cannot be joined. -/
def MaximalRuns (gs : List (List Int)) : Prop :=
  (∀ g ∈ gs, g ≠ [] ∧ Consecutive g) ∧
  ∀ i g h a b, gs[i]? = some g → gs[i + 1]? = some h → g.getLast? = some a → h.head? = some b →
    b ≠ a + 1

end Gosstrak
