import Verif.Model.Managed
import Verif.Spec.Monitored
import Verif.Spec.Generate

/-!
What the management port adds to a run, and what the six-bit encoding of a text is.
-/
namespace Gosstrak

/-- the moves of everything but the management port -/
def monMoves (ls : List ManLabel) : List MonLabel :=
  ls.filterMap fun l => match l with
    | .mon l => some l
    | _ => none

/-- the port cannot be opened, or `Accept` fails -/
def ManLabel.Trouble (l : ManLabel) : Prop := l = .listen false ∨ l = .acceptFails

/-- the characters one after another, each with its number modulo 64 in six bits -/
inductive SixBitText : Str → Str → Prop where
  | nil : SixBitText [] []
  | cons {c : Char} {bits a out : Str} (h : BinPadded 6 (c.toNat % 64) bits) (t : SixBitText a out) :
      SixBitText (c :: a) (bits ++ out)

/-- the characters that have a six-bit code -/
def SixBitChars (a : Str) : Prop := ∀ c ∈ a, 32 ≤ c.toNat ∧ c.toNat < 96

end Gosstrak
