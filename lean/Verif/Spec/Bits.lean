import Verif.Model.Go

/-!
Specification vocabulary for tag IDs, independent of filters and engines.
-/
namespace Gosstrak

/-- Bit `n` of an ID, counted from the most significant bit of the first byte. -/
def idBit (id : List Byte) (n : Nat) : Bool :=
  match id[n / 8]? with
  | some b => b.getMsbD (n % 8)
  | none => false

/-- The ID carries the bits of `s` from bit position `o` on; `x` stands for either bit. -/
def Carries (s : Str) (o : Nat) (id : List Byte) : Prop :=
  ∀ i c, s[i]? = some c → c ≠ 'x' → (c = '1' ↔ idBit id (o + i) = true)

/-- The ID is long enough to hold `s` at `o`. (The second clause only matters for empty `s`.) -/
def Covers (s : Str) (o : Nat) (id : List Byte) : Prop :=
  o + s.length ≤ 8 * id.length ∧ o / 8 < id.length

/-- The bits of an ID as a string of `0` and `1`, most significant bit of the first byte first. -/
def bitsOf (id : List Byte) : Str :=
  (List.range (8 * id.length)).map fun n => if idBit id n then '1' else '0'

/-- A filter string: characters `0`, `1` and the wildcard `x`. -/
def IsFilterStr (s : Str) : Prop := ∀ c ∈ s, c = '0' ∨ c = '1' ∨ c = 'x'

/-- A bit string: characters `0` and `1`. -/
def IsBitStr (s : Str) : Prop := ∀ c ∈ s, c = '0' ∨ c = '1'

instance (s : Str) : Decidable (IsFilterStr s) := by unfold IsFilterStr; infer_instance
instance (s : Str) : Decidable (IsBitStr s) := by unfold IsBitStr; infer_instance
instance (s : Str) (o : Nat) (id : List Byte) : Decidable (Covers s o id) := by
  unfold Covers; infer_instance

end Gosstrak
