import Verif.Model.Encode
import Verif.Spec.EPC

/-! Specification vocabulary for encoding, and what is assumed of `binutil`. -/
namespace Gosstrak

/-- value of a string of bits -/
def binVal (s : Str) : Nat := s.foldl (fun n c => 2 * n + (if c = '1' then 1 else 0)) 0

/-- `s` is `n` in binary without superfluous zeros. -/
def BinNumeral (n : Nat) (s : Str) : Prop :=
  IsBitStr s ∧ s ≠ [] ∧ binVal s = n ∧ (s.head? = some '0' → s = ['0'])

/-- `s` is `n` in binary with exactly `w` bits. -/
def BinPadded (w n : Nat) (s : Str) : Prop := IsBitStr s ∧ s.length = w ∧ binVal s = n

instance (n : Nat) (s : Str) : Decidable (BinNumeral n s) := by unfold BinNumeral; infer_instance
instance (w n : Nat) (s : Str) : Decidable (BinPadded w n s) := by unfold BinPadded; infer_instance

/-- What is assumed of the external functions: decimal texts of numbers that fit into 63 bits become
    binary numerals, a random bit string has the wanted length, and a character of the six-bit
    alphabet becomes the low six bits of its code. -/
structure Binutil.Ok (x : Binutil) : Prop where
  decToBin : ∀ s, IsDigits s → s ≠ [] → decVal s < 2 ^ 63 → BinNumeral (decVal s) (x.decToBin s)
  randomBits : ∀ i n m, IsBitStr (x.randomBits i n m) ∧ (x.randomBits i n m).length = n
  sixBit : ∀ c : Char, 32 ≤ c.toNat → c.toNat < 96 → BinPadded 6 (c.toNat % 64) (x.sixBit c)

/-- an implementation of the external functions, for the concrete cases beside the theorems -/
def sampleBinutil : Binutil where
  decToBin s := binStr (decVal s)
  randomBits _ n _ := List.replicate n '1'
  sixBit c := leftPad 6 (binStr (c.toNat % 64))
  randomAlphabet n := List.replicate n 'Q'
  randomDigits n := List.replicate n '7'
  randomHex n := List.replicate n 'F'

/-- An EPC number of `d` digits, 6 to 12, as a company prefix. -/
def IsCompanyPrefix (cp : Str) : Prop := IsDigits cp ∧ 6 ≤ cp.length ∧ cp.length ≤ 12

/-- A filter value 0 to 7. -/
def IsFilterValue (fv : Str) : Prop := IsDigits fv ∧ fv ≠ [] ∧ decVal fv ≤ 7

instance (s : Str) : Decidable (IsCompanyPrefix s) := by unfold IsCompanyPrefix; infer_instance
instance (s : Str) : Decidable (IsFilterValue s) := by unfold IsFilterValue; infer_instance

/-- A number that fits into `w` bits. -/
def Fits (w : Nat) (s : Str) : Prop := IsDigits s ∧ s ≠ [] ∧ decVal s < 2 ^ w

instance (w : Nat) (s : Str) : Decidable (Fits w s) := by unfold Fits; infer_instance

/-- partition value for a company prefix of this length -/
def partitionFor (cp : Str) : Nat := 12 - cp.length

/-- ISO 6346 value of a character: digits count themselves, letters from 10 on without the multiples
    of 11. -/
def iso6346Value (c : Char) : Nat :=
  if c ≤ '9' then c.toNat - 48
  else if c = 'A' then 10
  else if c ≤ 'K' then c.toNat - 65 + 11
  else if c ≤ 'U' then c.toNat - 65 + 12
  else c.toNat - 65 + 13

/-- digits and upper-case letters -/
def IsCode (s : Str) : Prop := ∀ c ∈ s, ('0' ≤ c ∧ c ≤ '9') ∨ ('A' ≤ c ∧ c ≤ 'Z')

instance (s : Str) : Decidable (IsCode s) := by unfold IsCode; infer_instance

/-- characters of the six-bit table other than the space -/
def IsSixBit (s : Str) : Prop := ∀ c ∈ s, 33 ≤ c.toNat ∧ c.toNat < 96

instance (s : Str) : Decidable (IsSixBit s) := by unfold IsSixBit; infer_instance

/-- the EPC schemes -/
inductive Scheme
  | sgtin | sscc | grai | giai
deriving DecidableEq

namespace Scheme

/-- as in identities -/
def name : Scheme → Str
  | sgtin => "sgtin".toList
  | sscc => "sscc".toList
  | grai => "grai".toList
  | giai => "giai".toList

/-- as in patterns -/
def typeName (sc : Scheme) : Str := sc.name ++ "-96".toList

/-- first byte of a tag -/
def header : Scheme → Byte
  | sgtin => 48#8
  | sscc => 49#8
  | grai => 51#8
  | giai => 52#8

/-- bits of company prefix and second field together -/
def width : Scheme → Nat
  | sgtin => 44
  | sscc => 58
  | grai => 44
  | giai => 82

/-- with a serial of 38 bits -/
def hasSerial : Scheme → Prop
  | sgtin => True
  | sscc => False
  | grai => True
  | giai => False

/-- the canonical text of the second field for a company prefix: all digits for SGTIN, SSCC and GRAI
    (where one without digits has no text), no superfluous zero for GIAI -/
def Canonical (sc : Scheme) (cp ref : Str) : Prop :=
  match sc with
  | sgtin => IsDigits ref ∧ ref.length = partitionFor cp + 1
  | sscc => IsDigits ref ∧ ref.length = partitionFor cp + 5
  | grai => IsDigits ref ∧ ref.length = partitionFor cp ∧ 0 < partitionFor cp
  | giai => Numeral (decVal ref) ref ∧ decVal ref < 2 ^ (82 - companyBits (partitionFor cp))

instance (sc : Scheme) (cp ref : Str) : Decidable (sc.Canonical cp ref) := by
  unfold Canonical; cases sc <;> infer_instance

instance (sc : Scheme) : Decidable sc.hasSerial := by
  unfold hasSerial; cases sc <;> infer_instance

/-- one to four well-formed pattern fields: filter value, company prefix, second field, serial -/
def WellFormed (sc : Scheme) : List Str → Prop
  | [fv] => IsFilterValue fv
  | [fv, cp] => IsFilterValue fv ∧ IsCompanyPrefix cp
  | [fv, cp, ref] => IsFilterValue fv ∧ IsCompanyPrefix cp ∧ sc.Canonical cp ref
  | [fv, cp, ref, ser] => IsFilterValue fv ∧ IsCompanyPrefix cp ∧ sc.Canonical cp ref ∧
      sc.hasSerial ∧ Numeral (decVal ser) ser ∧ decVal ser < 2 ^ 38
  | _ => False

/-- one to four fields that fit into their bits -/
def Encodable (sc : Scheme) : List Str → Prop
  | [fv] => IsFilterValue fv
  | [fv, cp] => IsFilterValue fv ∧ IsCompanyPrefix cp
  | [fv, cp, ref] => IsFilterValue fv ∧ IsCompanyPrefix cp ∧
      Fits (sc.width - companyBits (partitionFor cp)) ref
  | [fv, cp, ref, ser] => IsFilterValue fv ∧ IsCompanyPrefix cp ∧
      Fits (sc.width - companyBits (partitionFor cp)) ref ∧ sc.hasSerial ∧ Fits 38 ser
  | _ => False

/-- the pattern as a subscriber writes it -/
def patternText (sc : Scheme) (fields : List Str) : Str :=
  "urn:epc:pat:".toList ++ sc.typeName ++ ":".toList ++ ['.'].intercalate fields

/-- the tag has the values of these fields -/
def Has (sc : Scheme) (id : List Byte) : List Str → Prop
  | [fv] => id.head? = some sc.header ∧ field id 8 3 = decVal fv
  | [fv, cp] => id.head? = some sc.header ∧ field id 8 3 = decVal fv ∧
      partitionOf id = partitionFor cp ∧ companyOf id = decVal cp
  | [fv, cp, ref] => id.head? = some sc.header ∧ field id 8 3 = decVal fv ∧
      partitionOf id = partitionFor cp ∧ companyOf id = decVal cp ∧ secondOf sc.width id = decVal ref
  | [fv, cp, ref, ser] => id.head? = some sc.header ∧ field id 8 3 = decVal fv ∧
      partitionOf id = partitionFor cp ∧ companyOf id = decVal cp ∧ secondOf sc.width id = decVal ref ∧
      serialOf id = decVal ser
  | _ => False

/-- the `Make...96` call for a tag (`pf` false) -/
def make (sc : Scheme) (x : Binutil) (fv cp ref ser : Str) : Option Made :=
  match sc with
  | sgtin => x.makeSGTIN96 false fv cp ref ser
  | sscc => x.makeSSCC96 false fv cp ref
  | grai => x.makeGRAI96 false fv cp ref ser
  | giai => x.makeGIAI96 false fv cp ref

/-- the `Make...96` call for a filter and a pattern (`pf` true); missing fields are empty -/
def makeFilter (sc : Scheme) (x : Binutil) (fields : List Str) : Option Made :=
  match sc with
  | sgtin => x.makeSGTIN96 true (fields.getD 0 []) (fields.getD 1 []) (fields.getD 2 []) (fields.getD 3 [])
  | sscc => x.makeSSCC96 true (fields.getD 0 []) (fields.getD 1 []) (fields.getD 2 [])
  | grai => x.makeGRAI96 true (fields.getD 0 []) (fields.getD 1 []) (fields.getD 2 []) (fields.getD 3 [])
  | giai => x.makeGIAI96 true (fields.getD 0 []) (fields.getD 1 []) (fields.getD 2 [])

/-- the fields of a complete tag -/
def allFields (sc : Scheme) (fv cp ref ser : Str) : List Str :=
  if sc.hasSerial then [fv, cp, ref, ser] else [fv, cp, ref]

/-- the identity with these fields -/
def urn (sc : Scheme) (fields : List Str) : Str :=
  "urn:epc:id:".toList ++ sc.name ++ ":".toList ++ ['.'].intercalate fields

end Scheme

/-- all patterns are well-formed EPC patterns -/
def AllWellFormed (sub : Subs) : Prop :=
  ∀ e ∈ sub, ∀ pat ∈ e.2, ∃ sc fields, Scheme.WellFormed sc fields ∧ pat = sc.patternText fields

/-- characters of the six-bit table -/
def IsSixBitOrSpace (s : Str) : Prop := ∀ c ∈ s, 32 ≤ c.toNat ∧ c.toNat < 96

instance (s : Str) : Decidable (IsSixBitOrSpace s) := by unfold IsSixBitOrSpace; infer_instance

/-- ISO 6346: the check digit of a container code -/
def checkDigit (cn : Str) : Nat :=
  ((List.range cn.length).map fun i => 2 ^ i * iso6346Value ((cn[i]?).getD '0')).sum % 11 % 10

/-- a number with zeros in front to at least six digits -/
def sixDigits (csn : Str) : Str := List.replicate (6 - csn.length) '0' ++ csn

/-- `c` is the hexadecimal digit with value `a`. -/
def HexDigit (c : Char) (a : Nat) : Prop :=
  "0123456789abcdef".toList[a]? = some c ∨ "0123456789ABCDEF".toList[a]? = some c

/-- The characters are the hexadecimal digits with these values. -/
inductive AllHex : Str → List Nat → Prop
  | nil : AllHex [] []
  | cons {c a s ds} : HexDigit c a → AllHex s ds → AllHex (c :: s) (a :: ds)

/-- The hexadecimal digits `s`, possibly none, have the value `v`. -/
def HexDigits (s : Str) (v : Nat) : Prop :=
  ∃ ds : List Nat, AllHex s ds ∧ v = ds.foldl (fun a d => 16 * a + d) 0

/-- A field as `strconv.ParseInt` sees it: an optional sign, digits, and the rest, which does not start
    with a digit. -/
structure Signed (s sign d rest : Str) : Prop where
  text : s = sign ++ d ++ rest
  sign : sign = ['-'] ∨ sign = ['+'] ∨ (sign = [] ∧ s.head? ≠ some '-' ∧ s.head? ≠ some '+')
  digits : IsDigits d
  rest : ∀ c, rest.head? = some c → ¬ ('0' ≤ c ∧ c ≤ '9')

/-- What a filter value counts for: the number it is, or the nearest one of 32 bits; zero if it is not a
    number, except that digits that exceed 32 bits count whatever comes behind them. -/
def Counts (s : Str) (v : Int) : Prop :=
  ∃ sign d rest, Signed s sign d rest ∧
    ((4294967295 < decVal d ∧ v = if sign = ['-'] then -2147483648 else 2147483647) ∨
     (decVal d ≤ 4294967295 ∧ d ≠ [] ∧ rest = [] ∧
        v = if sign = ['-'] then max (-2147483648) (-(decVal d : Int)) else min 2147483647 (decVal d : Int)) ∨
     (decVal d ≤ 4294967295 ∧ (d = [] ∨ rest ≠ []) ∧ v = 0))

end Gosstrak
