import Verif.Model.Factory

/-!
The state machine of a generator of engines (`filtering/engine_generator.go`), for any number of goroutines that
call `Event` on its exported field `FSM`. In the program only `Run` of the factory does, once for each generator
(Model/Factory); there is code for more.

Of `looplab/fsm` it is assumed, as documented, that an event which is not possible in the present state
changes nothing and returns an error, and that otherwise the new state is set and then the callback of that state
is called, by the goroutine of the caller and with the arguments of the event; other events are possible while
it runs. An engine is represented by the subscriptions it was made from; constructors succeed.
-/
namespace Gosstrak

/-- the events, engine_generator.go:52-57; `other` is any other text -/
inductive FsmEvent where
  | init | deploy | update | rebuild | other
deriving DecidableEq, Repr

/-- an argument of an event: what the callbacks distinguish -/
inductive FsmArg where
  | subscriptions (s : Subs)
  | message
  | nilMessage
  | other
deriving DecidableEq, Repr

/-- engine_generator.go:50-57: the state to which an event leads -/
def fsmDst : FsmEvent → Fsm → Option Fsm
  | .init, .unavailable => some .generating
  | .deploy, .generating => some .ready
  | .deploy, .rebuilding => some .ready
  | .update, .ready => some .pending
  | .rebuild, .pending => some .rebuilding
  | _, _ => none

/-- what a goroutine does next -/
inductive FsmThread where
  /-- call `Event` -/
  | event (e : FsmEvent) (args : List FsmArg)
  /-- run the callback of the state entered -/
  | entered (s : Fsm) (args : List FsmArg)
  /-- engine_generator.go:122-127: the goroutine started by `enterGenerating` -/
  | construct (args : List FsmArg)
  /-- engine_generator.go:157-160: hand the generator over to the factory -/
  | announce
  | over
deriving DecidableEq, Repr

/-- the generator. `log`, the events that were possible, and `announced`, the engines handed over, are not in the
    code. -/
structure FsmMachine where
  fsm : Fsm
  engine : Option Subs
  threads : List FsmThread
  log : List (FsmEvent × List FsmArg)
  announced : List Subs
  crashed : Bool
deriving DecidableEq, Repr

/-- engine_generator.go:35-57 -/
def fsmStart : FsmMachine := ⟨.unavailable, none, [], [], [], false⟩

inductive FsmMove where
  /-- a new goroutine wants to call `Event` -/
  | call (e : FsmEvent) (args : List FsmArg)
  /-- the goroutine with this number moves -/
  | go (i : Nat)
deriving DecidableEq, Repr

namespace FsmMachine

/-- the goroutine does `t` next -/
def next (m : FsmMachine) (i : Nat) (t : FsmThread) : FsmMachine := { m with threads := m.threads.set i t }

/-- a panic ends the process -/
def crash (m : FsmMachine) : FsmMachine := { m with crashed := true }

/-- engine_generator.go:121-166: the callbacks; the factory receives at engine_factory.go:124, 167, where it
    asks the engine for its name -/
def move (m : FsmMachine) (i : Nat) : FsmThread → Option FsmMachine
  | .over => none
  | .event e args =>
    match fsmDst e m.fsm with
    | none => some (m.next i .over)
    | some s => some { m.next i (.entered s args) with fsm := s, log := m.log ++ [(e, args)] }
  -- 121-128
  | .entered .generating args => some { m with threads := m.threads.set i .over ++ [.construct args] }
  -- 155-161
  | .entered .ready _ => some (m.next i .announce)
  -- 163-166
  | .entered .pending args =>
    match args with
    | .message :: _ => some (m.next i (.event .rebuild [.message]))
    | .nilMessage :: _ => some (m.next i (.event .rebuild [.nilMessage]))
    | _ => some m.crash
  -- 130-153
  | .entered .rebuilding args =>
    match args with
    | .message :: _ => some (m.next i (.event .deploy []))
    | _ => some m.crash
  -- no event leads there
  | .entered .unavailable _ => some (m.next i .over)
  -- 124-126
  | .construct args =>
    match args with
    | .subscriptions s :: _ => some { m.next i (.event .deploy []) with engine := some s }
    | _ => some m.crash
  -- 157-160
  | .announce =>
    match m.engine with
    | none => some m.crash
    | some s => some { m.next i .over with announced := m.announced ++ [s] }

/-- one move of a program that has not crashed, engine_generator.go:117-166 -/
def step (m : FsmMachine) : FsmMove → Option FsmMachine
  | .call e args => some { m with threads := m.threads ++ [.event e args] }
  | .go i => (m.threads[i]?).bind (m.move i)

/-- a list of moves; a crashed program does not move -/
def run (m : FsmMachine) : List FsmMove → Option FsmMachine
  | [] => some m
  | l :: ls => if m.crashed then none else (m.step l).bind fun m' => run m' ls

end FsmMachine
end Gosstrak
