import Verif.Spec.Fair
import Verif.Spec.Monitored

/-!
Endless executions of the whole program with statistics in which no goroutine is passed over for ever and the
database answers.
-/
namespace Gosstrak

/-- The kind of a move, as for the program; the database answers whether it accepts a write or not. -/
def MonLabel.kind : MonLabel → MonLabel
  | .prog l => .prog l.kind
  | .watch .refused => .watch .written
  | l => l

variable {F : Type}

/-- A move of this kind is possible. -/
def Monitored.Can (env : FcEnv) (c : Config F) (tr : Translator) (percent : Percent F) (accept : Point F → Bool)
    (enabled : Bool) (s : Monitored F) (k : MonLabel) : Prop :=
  ∃ l t, l.kind = k.kind ∧ MonStep env c tr percent accept enabled s l t

/-- No kind of moves of the program or of the database is possible again and again without being made again and
    again. -/
def Monitored.Fair (env : FcEnv) (c : Config F) (tr : Translator) (percent : Percent F) (accept : Point F → Bool)
    (enabled : Bool) (s : Nat → Monitored F) (l : Nat → MonLabel) : Prop :=
  ∀ k : MonLabel, k.Own → (∀ i, ∃ j, i ≤ j ∧ (s j).Can env c tr percent accept enabled k) →
    ∀ i, ∃ j, i ≤ j ∧ (l j).kind = k.kind

end Gosstrak
