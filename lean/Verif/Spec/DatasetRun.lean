import Verif.Model.DatasetRun

/-! Specification vocabulary for the runs of the data set tool. -/
namespace Gosstrak

/-- the lines that are not blank -/
def nonBlank (l : List Str) : List Str := l.filter fun s => decide (s ≠ [])

/-- What comes out when the jobs are done one after the other: the files and the lines of filters.csv;
    `none` when an existing file is fatal. -/
def oneAfterAnother : List (List Str × List Str) → List Job → Option (List (List Str × List Str) × List Str)
  | files, [] => some (files, [])
  | files, j :: js =>
    if (fileGet files j.file).isSome then if j.fatal then none else oneAfterAnother files js
    else (oneAfterAnother (fileSet files j.file j.content) js).map fun r => (r.1, nonBlank j.filters ++ r.2)

/-- a bound for the number of steps -/
def genBound (n : Nat) (jobs : List Job) : Nat := 2 * (jobs.flatMap Job.filters).length + 6 * jobs.length + n + 2

end Gosstrak
