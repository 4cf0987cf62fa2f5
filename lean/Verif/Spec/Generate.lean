import Verif.Model.Generate
import Verif.Spec.Encode

/-! Specification vocabulary for the generated texts. -/
namespace Gosstrak

/-- What is assumed of the external text function: the hexadecimal text of bytes becomes their bits. -/
structure BinText.Ok (t : BinText) : Prop where
  hexToBin : ∀ id : List Byte, t.hexToBin (hexEncode id) = bitsOf id

/-- an implementation for the concrete cases beside the theorems -/
def sampleBinText : BinText where
  hexToBin s := s.flatMap fun c => leftPad 4 (binStr ((hexVal c).getD 0))
  binToDec s := s
  hexToDec s := s

/-- The scheme with this name, in any letter case. -/
def Scheme.Named (sc : Scheme) (cs : Str) : Prop := toUpper cs = toUpper sc.typeName

instance (sc : Scheme) (cs : Str) : Decidable (sc.Named cs) := by unfold Scheme.Named; infer_instance

/-- the argument that holds the second field of a scheme -/
def Scheme.second (sc : Scheme) (ir ext iar at' : Str) : Str :=
  match sc with
  | sgtin => ir
  | sscc => ext
  | grai => at'
  | giai => iar

/-- The two texts stand for a tag with this PC and ID, as `gobtags` reads them. -/
def ReadsAs (bs pc : Str) (p0 p1 : Byte) (id : List Byte) : Prop :=
  makeByteID bs = (id, false) ∧ makeUint16PC pc = (256 * p0.toNat + p1.toNat, false)

instance (bs pc : Str) (p0 p1 : Byte) (id : List Byte) : Decidable (ReadsAs bs pc p0 p1 id) := by
  unfold ReadsAs; infer_instance

/-- A number in hexadecimal, of lower and upper case letters. -/
def HexNumeral (s : Str) (n : Nat) : Prop :=
  ∃ ds : List Nat, s.map hexVal = ds.map some ∧ n = ds.foldl (fun a d => 16 * a + d) 0

end Gosstrak
