import Verif.Model.Subs

/-!
`filtering/engine_factory.go` and `filtering/engine_generator.go` with the goroutines of
`cmd/gosstrak-fc/main.go` around them, as a transition system. A label names the goroutine that moves
and the choices made by the scheduler, the clock, the map iteration and the environment; `step` is
the effect of the move, `none` that the move is not possible. Executions are lists of labels.

Every read and write of a shared field is a step of its own, except where only one goroutine ever
accesses the field. Single reads and writes are taken to be atomic (Go does not promise this for the
string `currentEngineName`). Channels between generators and factory are unbuffered: sender and
receiver move together. The main channel is a queue of the given capacity, read by the factory
itself and by the goroutine of `main.go`. The `looplab/fsm` package is trusted to set the new state
before calling the `enter_` callbacks. The constructors of the engines are taken to succeed; an
engine is represented by the subscriptions it was made from.
-/
namespace Gosstrak

/-- what is used of `float64`: comparison, zero, the quotient of two counters, the test `IsNaN` -/
structure Floats (F : Type) where
  lt : F → F → Bool
  zero : F
  div : Nat → Nat → F
  isNaN : F → Bool

/-- filtering/management_message.go:11-32: the messages in use, with the fields in use -/
inductive Msg (F : Type) where
  | add (pattern uri : Str)
  | delete (pattern uri : Str)
  | traffic (engine : Str) (events matched : Nat)
  | status (engine : Str) (throughput : F)
  | selected (engine : Str)
deriving DecidableEq, Repr

/-- filtering/engine_generator.go:46-57: the states of the FSM -/
inductive Fsm where
  | unavailable | generating | ready | pending | rebuilding
deriving DecidableEq, Repr

/-- filtering/engine_generator.go:121-128, 155-161: the goroutine of `enterGenerating` -/
inductive Builder where
  | off
  | building (sub : Subs)
  | deploying
  | announcing
  | done
deriving DecidableEq, Repr

/-- filtering/engine_generator.go:68-102: the goroutine that counts -/
inductive Monitor (F : Type) where
  | waiting
  | sendTraffic (events matched : Nat)
  | compute
  | sendStatus (v : F)
  | reset
deriving DecidableEq, Repr

/-- filtering/engine_generator.go:21-32 `EngineGenerator`. `all`, `batches` and `batch` are not in the
    code: the durations (ns) received so far; those of the intervals already reported; those since
    the counters were last reset. -/
structure Gen (F : Type) where
  fsm : Fsm
  engine : Option Subs
  builder : Builder
  monitor : Monitor F
  events : Nat
  matched : Nat
  totalTime : Nat
  all : List Nat
  batches : List (List Nat)
  batch : List Nat

/-- filtering/engine_factory.go:119-195: the goroutine that listens -/
inductive Listener (F : Type) where
  | idle
  | generated (n : Str)
  | compare (n : Str)
  | setCurrent (n : Str)
  | evalSelected
  | store (n : Str) (v : F)
  | send (m : Msg F)
deriving DecidableEq, Repr

/-- filtering/engine_factory.go:92-117: the goroutine that selects. `seen` is not in the code: the
    values read so far. -/
inductive Selector (F : Type) where
  | idle
  | range (rest : List Str) (best : Str) (perf : F) (seen : List (Str × F))
  | decide (best : Str) (perf : F) (seen : List (Str × F))
  | setCurrent (best : Str)
  | evalSelected
  | send (m : Msg F)
deriving DecidableEq, Repr

/-- filtering/engine_factory.go:40-47 `Search` and engine_generator.go:108-115 `Search`. `rest` are the
    generators still to visit, `none` during the last search, whose result is returned. -/
inductive Searcher where
  | idle
  | range (rest : List Str)
  | call (n : Str) (rest : Option (List Str))
  | readMatched (n : Str) (rest : Option (List Str))
  | writeMatched (n : Str) (rest : Option (List Str)) (m : Nat)
  | track (n : Str) (rest : Option (List Str))
deriving DecidableEq, Repr

/-- the whole state. `sent`, `seen` and `hits` are not in the code: the reports handed over by
    generators, the messages received by the goroutine of `main.go` (lines 135-168), and the number
    of searches of each engine that found something. -/
structure World (F : Type) where
  subs : Subs
  current : Str
  perf : Str → F
  gens : Str → Gen F
  listener : Listener F
  selector : Selector F
  searcher : Searcher
  queue : List (Msg F)
  sent : List (Msg F)
  seen : List (Msg F)
  hits : Str → Nat
  crashed : Bool

/-- the fixed data: the engines (engine.go:34-40), their priority (engine_factory.go:72-77), the
    capacity of the main channel -/
structure Config (F : Type) where
  floats : Floats F
  names : List Str
  priority : Str → Nat
  capacity : Nat

/-- engine.go:34-40 -/
def codeNames : List Str :=
  ["List".toList, "PatriciaTrie".toList, "SplayTree".toList, "LegacyEngine".toList]

/-- engine_factory.go:72-77 -/
def codePriority (n : Str) : Nat :=
  if n = "LegacyEngine".toList then 0
  else if n = "List".toList then 1
  else if n = "PatriciaTrie".toList then 3
  else if n = "SplayTree".toList then 2
  else 0

/-- the configuration of the program; the capacity is in main.go:34, 134 -/
def Config.code {F : Type} (fl : Floats F) : Config F where
  floats := fl
  names := codeNames
  priority := codePriority
  capacity := 128

/-- the moves: engine_factory.go:40-47, 85-203; engine_generator.go:68-161; main.go:135-168, 229 -/
inductive Label where
  /-- engine_factory.go:199-202: `Run` starts a generator -/
  | init (n : Str)
  | build (n : Str)
  | deploy (n : Str)
  /-- the ticker of a generator -/
  | genTick (n : Str)
  | genCompute (n : Str)
  | genReset (n : Str)
  | recvGenerated (n : Str)
  | recvTraffic (n : Str)
  | recvStatus (n : Str)
  | recvMain
  | listener
  /-- the ticker of the factory; the order in which `Range` will visit the keys -/
  | tick (order : List Str)
  | selector
  /-- a call of `Search`; the order in which `range` will visit the generators -/
  | search (order : List Str)
  | searchNext
  /-- the engine's own search, and whether it found something -/
  | engineSearch (found : Bool)
  | readMatched
  | writeMatched
  /-- the deferred `timeTrack`, with the duration in nanoseconds -/
  | track (t : Nat)
  /-- the goroutine of `main.go` takes a message -/
  | mainRecv
  /-- somebody sends a message to add or delete a subscription -/
  | manageAdd (pattern uri : Str)
  | manageDelete (pattern uri : Str)
deriving DecidableEq, Repr

def upd {α : Type} (f : Str → α) (n : Str) (v : α) : Str → α := fun m => if m = n then v else f m

namespace World
variable {F : Type}

/-- engine_factory.go:50-82 `NewEngineFactory` and engine_generator.go:35-105 `NewEngineGenerator` -/
def start (c : Config F) (sub : Subs) : World F where
  subs := sub
  current := []
  perf := fun _ => c.floats.zero
  gens := fun _ => ⟨.unavailable, none, .off, .waiting, 0, 0, 0, [], [], []⟩
  listener := .idle
  selector := .idle
  searcher := .idle
  queue := []
  sent := []
  seen := []
  hits := fun _ => 0
  crashed := false

/-- engine_factory.go:32-37 `IsActive` -/
def isActive (w : World F) : Bool := decide (w.current ≠ [])

def setGen (w : World F) (n : Str) (g : Gen F) : World F := { w with gens := upd w.gens n g }

def push (c : Config F) (w : World F) (m : Msg F) : Option (World F) :=
  if w.queue.length < c.capacity then some { w with queue := w.queue ++ [m] } else none

/-- the moves of the listener that need no partner, engine_factory.go:138-192 -/
def listenerStep (c : Config F) (w : World F) : Option (World F) :=
  match w.listener with
  | .idle => none
  | .generated n =>
    -- 167: the log line asks the engine for its name
    if (w.gens n).engine = none then some { w with crashed := true }
    -- 168
    else if w.current = [] then some { w with listener := .setCurrent n }
    else some { w with listener := .compare n }
  | .compare n =>
    -- 177
    if c.priority w.current < c.priority n then some { w with listener := .setCurrent n }
    else some { w with listener := .idle }
  | .setCurrent n => some { w with current := n, listener := .evalSelected }
  | .evalSelected => some { w with listener := .send (.selected w.current) }
  | .store n v => some { w with perf := upd w.perf n v, listener := .send (.status n v) }
  | .send m => (push c w m).map fun w => { w with listener := .idle }

/-- the moves of the selector, engine_factory.go:98-114 -/
def selectorStep (c : Config F) (w : World F) : Option (World F) :=
  match w.selector with
  | .idle => none
  | .range [] best perf seen => some { w with selector := .decide best perf seen }
  | .range (k :: rest) best perf seen =>
    let v := w.perf k
    if c.floats.lt perf v then some { w with selector := .range rest k v (seen ++ [(k, v)]) }
    else some { w with selector := .range rest best perf (seen ++ [(k, v)]) }
  | .decide best _ _ =>
    if w.current ≠ best ∧ best.length ≠ 0 then some { w with selector := .setCurrent best }
    else some { w with selector := .evalSelected }
  | .setCurrent best => some { w with current := best, selector := .evalSelected }
  | .evalSelected => some { w with selector := .send (.selected w.current) }
  | .send m => (push c w m).map fun w => { w with selector := .idle }

/-- where `Search` of the factory goes on after `Search` of a generator -/
def resume : Option (List Str) → Searcher
  | none => .idle
  | some rest => .range rest

/-- one move of a program that has not crashed: engine_factory.go:40-47, 85-203,
    engine_generator.go:68-161, engine.go:44-46, main.go:135-168, 229 -/
def step (c : Config F) (w : World F) (l : Label) : Option (World F) :=
  match l with
  | .init n =>
    let g := w.gens n
    if n ∈ c.names ∧ g.fsm = .unavailable then
      some (w.setGen n { g with fsm := .generating, builder := .building w.subs })
    else none
  | .build n =>
    let g := w.gens n
    match g.builder with
    | .building sub => some (w.setGen n { g with engine := some sub, builder := .deploying })
    | _ => none
  | .deploy n =>
    let g := w.gens n
    if g.builder = .deploying ∧ (g.fsm = .generating ∨ g.fsm = .rebuilding) then
      some (w.setGen n { g with fsm := .ready, builder := .announcing })
    else none
  | .genTick n =>
    let g := w.gens n
    match g.monitor with
    | .waiting =>
      if n ∈ c.names then some (w.setGen n { g with monitor := .sendTraffic g.events g.matched })
      else none
    | _ => none
  | .genCompute n =>
    let g := w.gens n
    match g.monitor with
    | .compute =>
      let v := c.floats.div g.events g.totalTime
      -- 89: `throughput != 0 && !IsNaN`; of numbers that are no NaN, different means less or greater
      if (c.floats.lt v c.floats.zero ∨ c.floats.lt c.floats.zero v) ∧ ¬ c.floats.isNaN v then
        some (w.setGen n { g with monitor := .sendStatus v })
      else some (w.setGen n { g with monitor := .reset })
    | _ => none
  | .genReset n =>
    let g := w.gens n
    match g.monitor with
    | .reset => some (w.setGen n { g with
        monitor := .waiting, events := 0, matched := 0, totalTime := 0, batch := [] })
    | _ => none
  | .recvGenerated n =>
    let g := w.gens n
    match w.listener, g.builder with
    | .idle, .announcing => some { w.setGen n { g with builder := .done } with listener := .generated n }
    | _, _ => none
  | .recvTraffic n =>
    let g := w.gens n
    match w.listener, g.monitor with
    | .idle, .sendTraffic e m =>
      some { w.setGen n { g with monitor := .compute, batches := g.batches ++ [g.batch] } with
        listener := .send (.traffic n e m), sent := w.sent ++ [.traffic n e m] }
    | _, _ => none
  | .recvStatus n =>
    let g := w.gens n
    match w.listener, g.monitor with
    | .idle, .sendStatus v =>
      some { w.setGen n { g with monitor := .reset } with
        listener := .store n v, sent := w.sent ++ [.status n v] }
    | _, _ => none
  | .recvMain =>
    match w.listener, w.queue with
    | .idle, m :: q =>
      match m with
      | .traffic .. => some { w with queue := q, listener := .send m }
      | .status n v => some { w with queue := q, listener := .store n v }
      -- 139-165, and no case for SelectedEngine
      | .add .. | .delete .. | .selected .. => some { w with queue := q }
    | _, _ => none
  | .listener => w.listenerStep c
  | .tick order =>
    match w.selector with
    | .idle =>
      if order.isPerm c.names then some { w with selector := .range order [] c.floats.zero [] } else none
    | _ => none
  | .selector => w.selectorStep c
  | .search order =>
    match w.searcher with
    -- main.go:175-177: no search before the factory is active
    | .idle =>
      if w.isActive ∧ order.isPerm c.names then some { w with searcher := .range order } else none
    | _ => none
  | .searchNext =>
    match w.searcher with
    | .range (n :: rest) =>
      if n ≠ w.current ∧ (w.gens n).fsm = .ready then some { w with searcher := .call n (some rest) }
      else some { w with searcher := .range rest }
    | .range [] =>
      -- 46: a name without generator gives a nil pointer
      if w.current ∈ c.names then some { w with searcher := .call w.current none }
      else some { w with crashed := true }
    | _ => none
  | .engineSearch found =>
    match w.searcher with
    | .call n rest =>
      if (w.gens n).engine = none then some { w with crashed := true }
      else if found then
        some { w with searcher := .readMatched n rest, hits := upd w.hits n (w.hits n + 1) }
      else some { w with searcher := .track n rest }
    | _ => none
  | .readMatched =>
    match w.searcher with
    | .readMatched n rest => some { w with searcher := .writeMatched n rest (w.gens n).matched }
    | _ => none
  | .writeMatched =>
    match w.searcher with
    | .writeMatched n rest m =>
      some { w.setGen n { w.gens n with matched := m + 1 } with searcher := .track n rest }
    | _ => none
  | .track t =>
    match w.searcher with
    | .track n rest =>
      let g := w.gens n
      match g.monitor with
      | .waiting => some { w.setGen n { g with
            totalTime := g.totalTime + t / 1000, events := g.events + 1,
            all := g.all ++ [t], batch := g.batch ++ [t] } with searcher := resume rest }
      | _ => none
    | _ => none
  | .mainRecv =>
    match w.queue with
    | m :: q => some { w with queue := q, seen := w.seen ++ [m] }
    | [] => none
  | .manageAdd p u => push c w (.add p u)
  | .manageDelete p u => push c w (.delete p u)

/-- a list of moves; a crashed program does not move -/
def run (c : Config F) (w : World F) : List Label → Option (World F)
  | [] => some w
  | l :: ls => if w.crashed then none else (step c w l).bind fun w' => run c w' ls

end World
end Gosstrak
