import Verif.Spec.Factory

/-!
Endless executions of the factory in which no goroutine and no case of a `select` is passed over for ever.
-/
namespace Gosstrak

/-- a move without the duration of a search and without what an engine finds -/
def Label.sort : Label → Label
  | .track _ => .track 0
  | .engineSearch _ => .engineSearch true
  | l => l

/-- No sort of moves of the program itself is possible again and again without being made again and again. -/
def World.Fair {F : Type} (c : Config F) (s : Nat → World F) (l : Nat → Label) : Prop :=
  ∀ k : Label, k.Own → (∀ i, ∃ j, i ≤ j ∧ ∃ k' w, k'.sort = k.sort ∧ World.step c (s j) k' = some w) →
    ∀ i, ∃ j, i ≤ j ∧ (l j).sort = k.sort

end Gosstrak
