import Mathlib.Data.List.Forall2
import Verif.Model.Subs

/-! What the text form of the legacy engine says, by the rules of the Go language for string literals. -/
namespace Gosstrak

/-- the value of a hexadecimal digit -/
def LowerHex (c : Char) (n : Nat) : Prop :=
  ('0' ≤ c ∧ c ≤ '9' ∧ c.toNat = n + 48) ∨ ('a' ≤ c ∧ c ≤ 'f' ∧ c.toNat = n + 87)

/-- the value of a hexadecimal number, `n` being the value of the digits before -/
inductive HexFrom : Nat → Str → Nat → Prop
  | nil {n} : HexFrom n [] n
  | cons {n d v s m} : LowerHex d v → HexFrom (16 * n + v) s m → HexFrom n (d :: s) m

/-- The Go language specification, "Rune literals" and "String literals": the text between the quotes
    for one character of an interpreted string literal (octal escapes and capital hexadecimal digits are
    left out) -/
inductive LiteralChar : Char → Str → Prop
  | plain {c} : c ≠ '"' → c ≠ '\\' → c ≠ '\n' → LiteralChar c [c]
  | short {c e} : (e, c.toNat) ∈ [('a', 7), ('b', 8), ('f', 12), ('n', 10), ('r', 13), ('t', 9), ('v', 11),
      ('\\', 92), ('"', 34)] → LiteralChar c ['\\', e]
  | hex {c ds} : ds.length = 2 → c.toNat < 128 → HexFrom 0 ds c.toNat → LiteralChar c ('\\' :: 'x' :: ds)
  | small {c ds} : ds.length = 4 → HexFrom 0 ds c.toNat → LiteralChar c ('\\' :: 'u' :: ds)
  | large {c ds} : ds.length = 8 → HexFrom 0 ds c.toNat → LiteralChar c ('\\' :: 'U' :: ds)

/-- `text` is a string literal for `s`. -/
def Literal (s text : Str) : Prop :=
  ∃ parts, List.Forall₂ LiteralChar s parts ∧ text = '"' :: (parts.flatten ++ ['"'])

/-- The line `text`, without the newline, names a report URI and lists its patterns as literals. -/
def LegacyLine (e : Str × List Str) (text : Str) : Prop :=
  ∃ lits, List.Forall₂ Literal e.2 lits ∧
    text = "--".toList ++ e.1 ++ " [".toList ++ [' '].intercalate lits ++ "]".toList

/-- `text` consists of such lines. -/
def LegacyText (es : List (Str × List Str)) (text : Str) : Prop :=
  ∃ ss, List.Forall₂ LegacyLine es ss ∧ text = ss.flatMap (· ++ ['\n'])

/-- What is known of the printable characters: among the ASCII characters they are those from the
    space to the tilde. -/
def AsciiPrint (p : Char → Bool) : Prop := ∀ c : Char, c.toNat < 128 → (p c = true ↔ 32 ≤ c.toNat ∧ c.toNat ≤ 126)

end Gosstrak
