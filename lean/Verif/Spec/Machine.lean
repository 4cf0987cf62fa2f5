import Verif.Model.Machine

/-! What is expected of the life of a generator, and how its state machine is to be used. -/
namespace Gosstrak

/-- The calls that suit the callbacks: `init` with subscriptions and `update` with a message. -/
def FsmMove.Proper : FsmMove → Prop
  | .call e args => (e = .init ∧ ∃ s rest, args = .subscriptions s :: rest) ∨
      (e = .update ∧ ∃ rest, args = .message :: rest)
  | .go _ => True

/-- No goroutine can move. -/
def FsmMachine.AtRest (m : FsmMachine) : Prop := ∀ i, m.step (.go i) = none

/-- a life with `n` complete updates, engine_generator.go:46-49 -/
def fsmLife (n : Nat) : List FsmEvent :=
  [.init, .deploy] ++ (List.replicate n [.update, .rebuild, .deploy]).flatten

/-- the moves that are not calls -/
def FsmMove.Own : FsmMove → Prop
  | .call .. => False
  | .go _ => True

end Gosstrak
