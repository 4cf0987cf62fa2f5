import Verif.Model.Watched
import Verif.Spec.Stat
import Verif.Spec.Factory

/-! Notions for the properties of the program with its statistics. -/
namespace Gosstrak
variable {F : Type}

/-- the database answers -/
def WatchLabel.Answer (l : WatchLabel) : Prop := l = .written ∨ l = .refused

/-- a search of an engine ends, or a call of `Search` begins -/
def WatchLabel.Searching (l : WatchLabel) : Prop := (∃ t, l = .world (.track t)) ∨ ∃ o, l = .world (.search o)

/-- moves that the process and a database in order make, without clock, search or message from outside -/
def WatchLabel.Inner (l : WatchLabel) : Prop :=
  (∃ k : Label, l = .world k ∧ k.internal = true) ∨ l = .take ∨ l = .hand ∨ l = .written

/-- the process can get to `s` -/
def Watched.Reaches (c : Config F) (percent : Percent F) (accept : Point F → Bool) (enabled : Bool) (sub : Subs)
    (s : Watched F) : Prop :=
  ∃ ls, Watched.run c percent accept enabled (Watched.start c sub) ls = some s

/-- an endless execution: the states and the moves between them -/
structure Watched.Endless (c : Config F) (percent : Percent F) (accept : Point F → Bool) (enabled : Bool)
    (s : Nat → Watched F) (l : Nat → WatchLabel) : Prop where
  alive : ∀ i, (s i).world.crashed = false ∧ (s i).stat.dead = false
  moves : ∀ i, Watched.step c percent accept enabled (s i) (l i) = some (s (i + 1))

/-- a ticker that fires is noticed: a generator that waits again and again for its ticker or a search again and
    again takes the ticker -/
def Watched.Ticks (s : Nat → Watched F) (l : Nat → WatchLabel) (n : Str) : Prop :=
  (∀ i, ∃ j, i ≤ j ∧ ((s j).world.gens n).monitor = .waiting) → ∀ i, ∃ j, i ≤ j ∧ l j = .world (.genTick n)

end Gosstrak
