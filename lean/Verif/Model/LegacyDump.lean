import Verif.Model.Subs

/-!
The text form of the legacy engine. Its `%q` quotes with `strconv.Quote`, whose rules are modelled
for text that is valid UTF-8. Which characters beyond ASCII are printable is left open.
-/
namespace Gosstrak

/-- the last `k` hexadecimal digits of a number, in lower case (`strconv.Quote`) -/
def hexText : Nat → Nat → Str
  | 0, _ => []
  | k + 1, n => hexText k (n / 16) ++ [Nat.digitChar (n % 16)]

/-- `strconv.Quote` of one character; `p` is `strconv.IsPrint`. The escapes are tried in the order
    of its `appendEscapedRune`. -/
def quoteChar (p : Char → Bool) (c : Char) : Str :=
  if c = '"' ∨ c = '\\' then ['\\', c]
  else if p c then [c]
  else if c.toNat = 7 then ['\\', 'a']
  else if c.toNat = 8 then ['\\', 'b']
  else if c.toNat = 12 then ['\\', 'f']
  else if c.toNat = 10 then ['\\', 'n']
  else if c.toNat = 13 then ['\\', 'r']
  else if c.toNat = 9 then ['\\', 't']
  else if c.toNat = 11 then ['\\', 'v']
  else if c.toNat < 32 ∨ c.toNat = 127 then '\\' :: 'x' :: hexText 2 c.toNat
  else if c.toNat < 65536 then '\\' :: 'u' :: hexText 4 c.toNat
  else '\\' :: 'U' :: hexText 8 c.toNat

/-- `strconv.Quote`, which is `%q` of a string -/
def quote (p : Char → Bool) (s : Str) : Str := '"' :: (s.flatMap (quoteChar p) ++ ['"'])

/-- `%q` of a slice of strings -/
def quoteList (p : Char → Bool) (l : List Str) : Str := '[' :: ([' '].intercalate (l.map (quote p)) ++ [']'])

/-- filtering/legacy_engine.go:53-59 `LegacyEngine.Dump` with the map `filters`; the text that `%s` makes
    of the report URI is the URI. -/
def legacyDump (p : Char → Bool) (filters : Subs) : Str :=
  (mapKeys filters).flatMap fun f =>
    ['-', '-'] ++ f ++ [' '] ++ quoteList p ((mapGet filters f).getD []) ++ ['\n']

end Gosstrak
