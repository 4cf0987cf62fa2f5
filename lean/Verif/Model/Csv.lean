import Verif.Model.Load

/-!
The text of the file of subscriptions. `LoadSubscriptionsFromCSVFile` reads it with `csv.Reader` of Go's
`encoding/csv`, which is not part of the repository; here is its `readRecord` for the options set in
filtering/subscriptions.go:153-156 (comma, no comments, strict quotes, any number of fields, leading
spaces kept). Opening the file is not modelled. A character stands for its UTF-8 bytes: the reader looks for
ASCII characters only. Errors of the file system are left out; the end of the file is the only one.
-/
namespace Gosstrak

/-- `bytes.IndexByte(s, c)` and what is before and behind it; `none` is -1 (filtering/subscriptions.go:158, in
    `Reader.readRecord` and `bufio.Reader.ReadSlice`) -/
def indexSplit (c : Char) : Str → Option (Str × Str)
  | [] => none
  | d :: s => if d = c then some ([], s) else (indexSplit c s).map fun p => (d :: p.1, p.2)

theorem indexSplit_length {c : Char} : ∀ {s a b : Str}, indexSplit c s = some (a, b) → b.length < s.length
  | [], _, _, h => by cases h
  | d :: s, a, b, h => by
    unfold indexSplit at h
    split at h
    · cases h; simp
    · cases hs : indexSplit c s with
      | none => rw [hs] at h; cases h
      | some p =>
        rw [hs] at h
        cases h
        have := indexSplit_length hs
        simp only [List.length_cons]
        omega

/-- a line without a carriage return at its end (`Reader.readLine`, in filtering/subscriptions.go:158) -/
def dropCR (l : Str) : Str := if l.getLast? = some '\r' then l.dropLast else l

/-- `Reader.readLine` (in filtering/subscriptions.go:158): the line with its line feed, what follows, and whether
    the end of the file was there already -/
def csvLine (t : Str) : Str × Str × Bool :=
  match indexSplit '\n' t with
  | some (l, rest) => (dropCR l ++ ['\n'], rest, false)
  | none => if t = [] then ([], [], true) else (dropCR t, [], false)

theorem dropCR_length (l : Str) : (dropCR l).length ≤ l.length := by
  unfold dropCR; split <;> simp

theorem csvLine_length (t : Str) : (csvLine t).1.length + (csvLine t).2.1.length ≤ t.length := by
  unfold csvLine
  split
  · rename_i l rest h
    have : ∀ {s a b : Str}, indexSplit '\n' s = some (a, b) → a.length + b.length + 1 = s.length := by
      intro s
      induction s with
      | nil => intro a b h; cases h
      | cons d s ih =>
        intro a b h
        unfold indexSplit at h
        split at h
        · cases h; simp
        · cases hs : indexSplit '\n' s with
          | none => rw [hs] at h; cases h
          | some p =>
            rw [hs] at h
            cases h
            have := ih hs
            simp only [List.length_cons]
            omega
    have h2 := this h
    have h3 := dropCR_length l
    simp
    omega
  · split
    · simp
    · have := dropCR_length t
      simpa using this

/-- a field without the line feed (`lengthNL` in `Reader.readRecord`, filtering/subscriptions.go:158) -/
def dropNL (l : Str) : Str := if l.getLast? = some '\n' then l.dropLast else l

mutual
/-- the loop `parseField` of `Reader.readRecord` (in filtering/subscriptions.go:158) with `line` the rest of the line,
    `rest` what follows it and `fields` the fields so far; `none` is an error, which makes
    `LoadSubscriptionsFromCSVFile` panic -/
def csvFields (line rest : Str) (fields : List Str) : Option (List Str × Str) :=
  match line with
  | '"' :: line => csvQuoted line rest [] fields
  | line =>
    match _h : indexSplit ',' line with
    | none => if '"' ∈ dropNL line then none else some (fields ++ [dropNL line], rest)
    | some (field, line') => if '"' ∈ field then none else csvFields line' rest (fields ++ [field])
termination_by line.length + rest.length
decreasing_by
  · simp
  · have := indexSplit_length _h; omega
/-- the inner loop for a quoted field (in filtering/subscriptions.go:158), of which `buf` has been read -/
def csvQuoted (line rest buf : Str) (fields : List Str) : Option (List Str × Str) :=
  match _h : indexSplit '"' line with
  | some (a, '"' :: line') => csvQuoted line' rest (buf ++ a ++ ['"']) fields
  | some (a, ',' :: line') => csvFields line' rest (fields ++ [buf ++ a])
  | some (a, line') => if line' = [] ∨ line' = ['\n'] then some (fields ++ [buf ++ a], rest) else none
  | none =>
    if _h0 : line = [] then none
    else csvQuoted (csvLine rest).1 (csvLine rest).2.1 (buf ++ line) fields
termination_by line.length + rest.length
decreasing_by
  · have := indexSplit_length _h; simp only [List.length_cons] at this; omega
  · have := indexSplit_length _h; simp only [List.length_cons] at this; omega
  · have := csvLine_length rest
    have := List.length_pos_iff.mpr _h0
    omega
end

/-- filtering/subscriptions.go:157-163: `reader.Read()` until the end of the file; `Reader.readRecord` skips empty
    lines. Each round takes at least one character, so that the length of the text bounds their number. -/
def csvRecords : Nat → Str → Option (List (List Str))
  | 0, _ => some []
  | n + 1, t =>
    match csvLine t with
    | (_, _, true) => some []
    | (line, rest, false) =>
      if line = [] ∨ line = ['\n'] then csvRecords n rest
      else match csvFields line rest [] with
        | none => none
        | some (record, rest) => (csvRecords n rest).map (record :: ·)

/-- the records of a text -/
def csvRead (t : Str) : Option (List (List Str)) := csvRecords t.length t

/-- filtering/subscriptions.go:144-181 `LoadSubscriptionsFromCSVFile` of a file with this text -/
def loadFile (t : Str) : Option Subs := (csvRead t).bind loadRecords

end Gosstrak
