import Verif.Model.Stat

/-!
The factory of `Model/Factory.lean` with the two goroutines its messages go through when statistics are on: the
one of `cmd/gosstrak-fc/main.go` that takes a message from the main channel and hands it over an unbuffered
channel, and the one of `monitoring/stat_manager.go` that makes a point of it and calls `Write` of the database
client. `Write` is a call and a return: it may succeed, fail, or not return. A label names the goroutine that
moves or the database.

Of `Write` nothing else is modelled; `writes` are the batches whose `Write` has succeeded.
-/
namespace Gosstrak
variable {F : Type}

/-- The state of the process. `holding` is the message the goroutine of main.go:135-168 is about to hand over
    (144, 152, 160), `writing` that `Write` (stat_manager.go:101) has not returned, `stat.dead` that the process
    has ended. -/
structure Watched (F : Type) where
  world : World F
  holding : Option (StatMessage F)
  stat : StatState F
  writing : Bool

/-- the moves -/
inductive WatchLabel where
  /-- a move of the factory, its generators or a search -/
  | world (l : Label)
  /-- main.go:137: a message is taken from the main channel -/
  | take
  /-- stat_manager.go:49: the message is handed over -/
  | hand
  /-- stat_manager.go:101: `Write` succeeds -/
  | written
  /-- stat_manager.go:101-103: `Write` fails -/
  | refused
deriving DecidableEq, Repr

namespace Watched

/-- main.go:119-171, stat_manager.go:22-46 -/
def start (c : Config F) (sub : Subs) : Watched F := ⟨World.start c sub, none, ⟨[], [], false⟩, false⟩

/-- stat_manager.go:53-103, up to the call of `Write` -/
def receive (percent : Percent F) (accept : Point F → Bool) (s : Watched F) (m : StatMessage F) : Watched F :=
  match buildPoint percent m with
  | .skip => { s with holding := none }
  | .panic => { s with holding := none, stat := { s.stat with dead := true } }
  | .point p =>
    if accept p then { s with holding := none, stat := { s.stat with batch := s.stat.batch ++ [p] }, writing := true }
    else { s with holding := none, stat := { s.stat with dead := true } }

/-- one move; `enabled` is the flag of main.go:143, 151, 159 -/
def step (c : Config F) (percent : Percent F) (accept : Point F → Bool) (enabled : Bool) (s : Watched F) :
    WatchLabel → Option (Watched F)
  | .world l =>
    if l = .mainRecv then none else (World.step c s.world l).map fun w => { s with world := w }
  | .take =>
    match s.holding, s.world.queue with
    | none, m :: _ => (World.step c s.world .mainRecv).map fun w =>
        { s with world := w, holding := if enabled then m.toStat else none }
    | _, _ => none
  | .hand =>
    match s.holding with
    | some m => if s.writing then none else some (s.receive percent accept m)
    | none => none
  | .written =>
    if s.writing then some { s with stat := { s.stat with writes := s.stat.writes ++ [s.stat.batch] }, writing := false }
    else none
  | .refused => if s.writing then some { s with stat := { s.stat with dead := true } } else none

/-- a list of moves; a process that has ended does not move -/
def run (c : Config F) (percent : Percent F) (accept : Point F → Bool) (enabled : Bool) (s : Watched F) :
    List WatchLabel → Option (Watched F)
  | [] => some s
  | l :: ls =>
    if s.world.crashed ∨ s.stat.dead then none
    else (step c percent accept enabled s l).bind fun s' => run c percent accept enabled s' ls

end Watched
end Gosstrak
