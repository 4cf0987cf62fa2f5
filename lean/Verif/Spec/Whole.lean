import Verif.Model.Whole
import Verif.Spec.Engines
import Verif.Spec.Factory
import Verif.Spec.FcRun

/-!
What the reader does in a run of the whole program, when the program rests, and which tags end it.
-/
namespace Gosstrak

/-- the moves of the reader, the message loop and the searching goroutine -/
def fcMoves (ls : List ProgLabel) : List FcLabel :=
  ls.filterMap fun l => match l with
    | .fc l => some l
    | _ => none

/-- moves of the program itself, made neither by the reader nor by a clock -/
def ProgLabel.Own : ProgLabel → Prop
  | .fc l => l.Own
  | .factory l => l.Own ∨ ∃ order, l = .search order
  | .panic => True

/-- The program does not move unless the reader or a clock does. -/
def Prog.AtRest {F : Type} (env : FcEnv) (c : Config F) (tr : Translator) (s : Prog F) : Prop :=
  ∀ l t, l.Own → ¬ ProgStep env c tr s l t

/-- a tag of 96 bits that is due and whose translation panics -/
def Kills (records : List (List Str)) (e : ReadEvent) : Prop :=
  e.2.length = 12 ∧ (∃ u, Due records e.2 u) ∧ translate e.1 e.2 = none

end Gosstrak
