import Verif.Model.Go

namespace Gosstrak

/-- filtering/engine.go:103-110: running lexicographic minimum and maximum -/
def minMaxStep (mm : Str × Str) (s : Str) : Str × Str :=
  if s < mm.1 then (s, mm.2)
  else if s > mm.2 then (mm.1, s)
  else mm

/-- filtering/engine.go:111-118: the loop over `min[i] != max[i]`; when it ends without a
    difference the whole of `min` is returned. -/
def cutAtDiff : Str → Str → Str
  | a :: mn, b :: mx => if a ≠ b then [] else a :: cutAtDiff mn mx
  | mn, _ => mn

/-- filtering/engine.go:93-120 `lcp` -/
def lcp (l : List Str) : Str :=
  match l with
  | [] => []
  | [s] => s
  | s :: rest =>
    let mm := rest.foldl minMaxStep (s, s)
    cutAtDiff mm.1 mm.2

/-- filtering/engine.go:62-72: remainders of the strings that start with `c` -/
def stripHead (c : Char) (l : List Str) : List Str :=
  l.filterMap fun s => match s with
    | [] => none
    | d :: r => if d = c then some r else none

theorem sum_stripHead_le (c : Char) (l : List Str) :
    ((stripHead c l).map List.length).sum + (stripHead c l).length ≤ (l.map List.length).sum := by
  induction l with
  | nil => simp [stripHead]
  | cons s l ih =>
    unfold stripHead at *
    cases s with
    | nil => simpa using ih
    | cons d r =>
      rw [List.filterMap_cons]
      by_cases h : d = c
      · simp only [h, if_true, List.map_cons, List.sum_cons, List.length_cons]; omega
      · simp only [h, if_false, List.map_cons, List.sum_cons, List.length_cons]; omega

/-- filtering/engine.go:50-87 `findPartialLCP` (the log line 54 is dropped) -/
def findPartialLCP (l : List Str) : Str × Nat :=
  if l.length < 2 then ([], 0)
  else
    let m := lcp l
    if m.length ≠ 0 then (m, l.length)
    else
      let zeros := stripHead '0' l
      let ones := stripHead '1' l
      -- 73-79: an absent recursive call (at most one element) behaves like the result ("", 0)
      let zr := if _hz : zeros.length > 1 then findPartialLCP zeros else ([], 0)
      let or := if _ho : ones.length > 1 then findPartialLCP ones else ([], 0)
      if zr.1.length ≠ 0 ∧ zr.2 > 1 then ('0' :: zr.1, zr.2)
      else if or.1.length ≠ 0 ∧ or.2 > 1 then ('1' :: or.1, or.2)
      else ([], 0)
termination_by (l.map List.length).sum
decreasing_by
  · have h := sum_stripHead_le '0' l
    have h2 : (stripHead '0' l).length > 1 := by assumption
    omega
  · have h := sum_stripHead_le '1' l
    have h2 : (stripHead '1' l).length > 1 := by assumption
    omega

end Gosstrak
