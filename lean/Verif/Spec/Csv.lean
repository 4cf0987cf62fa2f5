import Verif.Model.Go

/-!
What a file of comma-separated values is.
-/
namespace Gosstrak

/-- the text with line feeds as line ends: a carriage return before a line feed or at the end of the text is
    left out -/
def lineEnds : Str → Str
  | [] => []
  | c :: t => if c = '\r' ∧ (t = [] ∨ t.head? = some '\n') then lineEnds t else c :: lineEnds t

/-- with all quotes doubled -/
def doubled : Str → Str
  | [] => []
  | c :: f => if c = '"' then c :: c :: doubled f else c :: doubled f

/-- how a field can be written -/
inductive CsvField (f : Str) : Str → Prop
  | plain (h : ∀ c ∈ f, c ≠ ',' ∧ c ≠ '"' ∧ c ≠ '\n') : CsvField f f
  | quoted : CsvField f (['"'] ++ doubled f ++ ['"'])

/-- how a record can be written -/
inductive CsvRow : List Str → Str → Prop
  | one {f t : Str} (h : CsvField f t) : CsvRow [f] t
  | cons {f t : Str} {r : List Str} {s : Str} (h : CsvField f t) (hr : CsvRow r s) : CsvRow (f :: r) (t ++ ',' :: s)

/-- how records can be written: each on a line of its own, the last perhaps without a line end, empty lines
    anywhere -/
inductive CsvText : List (List Str) → Str → Prop
  | nil : CsvText [] []
  | blank {rows : List (List Str)} {t : Str} (h : CsvText rows t) : CsvText rows ('\n' :: t)
  | row {r : List Str} {s : Str} {rows : List (List Str)} {t : Str} (hr : CsvRow r s) (hs : s ≠ [])
      (h : CsvText rows t) : CsvText (r :: rows) (s ++ '\n' :: t)
  | last {r : List Str} {s : Str} (hr : CsvRow r s) (hs : s ≠ []) : CsvText [r] s

/-- the pieces between the separators -/
def pieces (c : Char) : Str → List Str
  | [] => [[]]
  | d :: s => if d = c then [] :: pieces c s else
      match pieces c s with
      | [] => [[d]]
      | p :: ps => (d :: p) :: ps

/-- without the carriage returns that are followed by line feeds -/
def unCR : Str → Str
  | [] => []
  | c :: t => if c = '\r' ∧ t.head? = some '\n' then unCR t else c :: unCR t

/-- a carriage return before each line feed -/
def crlf (t : Str) : Str := t.flatMap fun c => if c = '\n' then ['\r', '\n'] else [c]

/-- a file in which every field is quoted -/
def csvFile (rows : List (List Str)) : Str :=
  rows.flatMap fun r => [','].intercalate (r.map fun f => ['"'] ++ doubled f ++ ['"']) ++ ['\n']

end Gosstrak
