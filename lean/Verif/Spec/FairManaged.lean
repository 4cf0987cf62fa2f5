import Verif.Spec.FairMonitored
import Verif.Spec.Managed

/-!
Endless executions of the whole process with its management port in which no goroutine is passed over for ever and
the database answers. Whether and when clients connect is left open.
-/
namespace Gosstrak

/-- The kind of a move, as for the program with statistics; the port is opened or not. -/
def ManLabel.kind : ManLabel → ManLabel
  | .mon l => .mon l.kind
  | .listen _ => .listen true
  | l => l

/-- moves of the process itself and of a database in order, made neither by the reader, a clock nor a client -/
def ManLabel.Own : ManLabel → Prop
  | .mon l => l.Own
  | .listen _ => True
  | _ => False

variable {F : Type}

/-- A move of this kind is possible. -/
def Managed.Can (env : FcEnv) (c : Config F) (tr : Translator) (percent : Percent F) (accept : Point F → Bool)
    (enabled : Bool) (s : Managed F) (k : ManLabel) : Prop :=
  ∃ l t, l.kind = k.kind ∧ ManStep env c tr percent accept enabled s l t

/-- an endless execution: the states and the moves between them -/
def Managed.Endless (env : FcEnv) (c : Config F) (tr : Translator) (percent : Percent F) (accept : Point F → Bool)
    (enabled : Bool) (s : Nat → Managed F) (l : Nat → ManLabel) : Prop :=
  ∀ i, ManStep env c tr percent accept enabled (s i) (l i) (s (i + 1))

/-- No kind of moves of the process or of the database is possible again and again without being made again and
    again. -/
def Managed.Fair (env : FcEnv) (c : Config F) (tr : Translator) (percent : Percent F) (accept : Point F → Bool)
    (enabled : Bool) (s : Nat → Managed F) (l : Nat → ManLabel) : Prop :=
  ∀ k : ManLabel, k.Own → (∀ i, ∃ j, i ≤ j ∧ (s j).Can env c tr percent accept enabled k) →
    ∀ i, ∃ j, i ≤ j ∧ (l j).kind = k.kind

end Gosstrak
