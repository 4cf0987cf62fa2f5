import Verif.Spec.Bits

/-!
Specification vocabulary for EPC tags and their identities: bit fields, decimal numerals and the GS1
partition tables. Nothing here refers to the code.
-/
namespace Gosstrak

/-- The number written in `len` consecutive bits from `start` on, most significant bit first. -/
def bitsVal (f : Nat → Bool) (start : Nat) : Nat → Nat
  | 0 => 0
  | n + 1 => 2 * bitsVal f start n + (f (start + n)).toNat

/-- The unsigned number in bits `start .. start+len-1` of an ID. -/
def field (id : List Byte) (start len : Nat) : Nat := bitsVal (idBit id) start len

/-- value of a decimal digit -/
def digitVal (c : Char) : Nat := c.toNat - 48

/-- value of a decimal numeral -/
def decVal (s : Str) : Nat := s.foldl (fun n c => 10 * n + digitVal c) 0

/-- decimal digits only -/
def IsDigits (s : Str) : Prop := ∀ c ∈ s, '0' ≤ c ∧ c ≤ '9'

instance (s : Str) : Decidable (IsDigits s) := by unfold IsDigits; infer_instance

/-- `s` is `n` in decimal without superfluous zeros. -/
def Numeral (n : Nat) (s : Str) : Prop :=
  IsDigits s ∧ s ≠ [] ∧ decVal s = n ∧ (s.head? = some '0' → s = ['0'])

/-- `s` is `n` in decimal with exactly `d` digits. -/
def Padded (d n : Nat) (s : Str) : Prop := IsDigits s ∧ s.length = d ∧ decVal s = n

instance (n : Nat) (s : Str) : Decidable (Numeral n s) := by unfold Numeral; infer_instance
instance (d n : Nat) (s : Str) : Decidable (Padded d n s) := by unfold Padded; infer_instance

/-- GS1 partition tables: bits of the company prefix for the partition values 0 to 6. The company
    prefix has 12 - p digits. Whatever the partition, company prefix and the second field together
    have 44 bits in SGTIN-96 and GRAI-96, 58 bits in SSCC-96 and 82 bits in GIAI-96. -/
def companyBits (p : Nat) : Nat := [40, 37, 34, 30, 27, 24, 20].getD p 0

/-- partition value of a 96-bit EPC -/
def partitionOf (id : List Byte) : Nat := field id 11 3

/-- company prefix of a 96-bit EPC -/
def companyOf (id : List Byte) : Nat := field id 14 (companyBits (partitionOf id))

/-- the field after the company prefix, where both together have `w` bits -/
def secondOf (w : Nat) (id : List Byte) : Nat :=
  field id (14 + companyBits (partitionOf id)) (w - companyBits (partitionOf id))

/-- serial of SGTIN-96 and GRAI-96 -/
def serialOf (id : List Byte) : Nat := field id 58 38

/-- The character of six bits (ISO/IEC 15962 six-bit table as in ISO 17363): `A`-`Z` and a few symbols
    below 32, otherwise the ASCII code; 32 is the space, used for padding. -/
def sixBitChar (v : Nat) : Option Char :=
  if v = 32 then none else some (Char.ofNat (if v < 32 then 64 + v else v))

/-- the text of an ID in consecutive groups of six bits, padding left out -/
def sixBitText (id : List Byte) : Str :=
  (List.range (8 * id.length / 6)).filterMap fun i => sixBitChar (field id (6 * i) 6)

/-- Application family identifiers 0xA1 to 0xAA and the names they stand for -/
def afiNames : List String :=
  ["17367", "17365", "17364", "17367h", "17366", "17366h", "17365h", "17364h", "17363", "17363h"]

end Gosstrak
