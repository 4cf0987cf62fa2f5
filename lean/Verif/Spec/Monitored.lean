import Verif.Model.Monitored
import Verif.Spec.Whole
import Verif.Spec.Watched

/-!
What the reader sends in a run of the whole program with statistics, and the endless executions.
-/
namespace Gosstrak
variable {F : Type}

/-- the moves of the reader, the message loop and the searching goroutine -/
def readerMoves (ls : List MonLabel) : List FcLabel :=
  ls.filterMap fun l => match l with
    | .prog (.fc l) => some l
    | _ => none

/-- the bytes that have come from the reader -/
def bytesFrom (ls : List MonLabel) : List Byte :=
  ls.flatMap fun l => match l with
    | .prog (.fc (.arrive bs)) => bs
    | _ => []

/-- the report has at least one tag -/
def hasTags (env : FcEnv) (body : List Byte) : Bool :=
  match env.decode body with
  | some (_ :: _) => true
  | _ => false

/-- how many of the messages are reports with tags -/
def tagReports (env : FcEnv) (as : List LlrpAction) : Nat := ((reportBodies as).filter (hasTags env)).length

/-- the database answers -/
def MonLabel.Answer (l : MonLabel) : Prop := l = .watch .written ∨ l = .watch .refused

/-- a search of an engine ends, or a call of `Search` begins -/
def MonLabel.Searching (l : MonLabel) : Prop :=
  (∃ t, l = .prog (.factory (.track t))) ∨ ∃ o, l = .prog (.factory (.search o))

/-- moves of the program itself and of a database in order, made neither by the reader nor by a clock -/
def MonLabel.Own : MonLabel → Prop
  | .prog l => l.Own
  | .watch l => l ≠ .refused

/-- an endless execution: the states and the moves between them -/
def Monitored.Endless (env : FcEnv) (c : Config F) (tr : Translator) (percent : Percent F) (accept : Point F → Bool)
    (enabled : Bool) (s : Nat → Monitored F) (l : Nat → MonLabel) : Prop :=
  ∀ i, MonStep env c tr percent accept enabled (s i) (l i) (s (i + 1))

/-- a ticker that fires is noticed: a generator that waits again and again for its ticker or a search again and
    again takes the ticker -/
def Monitored.Ticks (s : Nat → Monitored F) (l : Nat → MonLabel) (n : Str) : Prop :=
  (∀ i, ∃ j, i ≤ j ∧ ((s j).prog.world.gens n).monitor = .waiting) →
    ∀ i, ∃ j, i ≤ j ∧ l j = .prog (.factory (.genTick n))

/-- the bytes that have come from the reader before the `k`-th move of an execution that goes on from a run -/
def sentBy (ls : List MonLabel) (l : Nat → MonLabel) (k : Nat) : List Byte :=
  bytesFrom (ls ++ (List.range k).map l)

end Gosstrak
