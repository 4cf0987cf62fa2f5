/-
Representation of Go values used by every model file.
-/
namespace Gosstrak

/-- Go `string` and `[]rune` (ASCII text only, so byte length = rune count). -/
abbrev Str := List Char

/-- Go `byte`. -/
abbrev Byte := BitVec 8

/-- Go `strings.HasPrefix(s, p)`. -/
def hasPrefix (s p : Str) : Bool := p.isPrefixOf s

/-- Go `strings.Repeat("0", n)` for an `int` count `want - have`:
    a negative count panics (`none`). -/
def repeatZero (want hav : Nat) : Option Str :=
  if hav ≤ want then some (List.replicate (want - hav) '0') else none

/-- insertion into an ascending list of strings -/
def insertSorted (s : Str) : List Str → List Str
  | [] => [s]
  | t :: ts => if s < t then s :: t :: ts else t :: insertSorted s ts

/-- Go `sort.Strings`: the ascending arrangement of a list of strings (which is unique, so the
    algorithm does not matter). -/
def sortStrings : List Str → List Str
  | [] => []
  | s :: ss => insertSorted s (sortStrings ss)

end Gosstrak
