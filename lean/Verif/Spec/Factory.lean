import Verif.Model.Factory

/-!
Notions for the properties of the factory. `Floats.Lawful` is what is assumed of `float64`: it holds
of IEEE 754 numbers as long as the counters are converted without overflow, whatever the rounding.
`quotients` is an instance without rounding.
-/
namespace Gosstrak

structure Floats.Lawful {F : Type} (fl : Floats F) : Prop where
  trans : ∀ a b d, fl.lt a b = true → fl.lt b d = true → fl.lt a d = true
  irrefl : ∀ a, fl.lt a a = false
  /-- `0/0` -/
  div_nan : fl.isNaN (fl.div 0 0) = true
  div_zero : ∀ d, d ≠ 0 → fl.lt fl.zero (fl.div 0 d) = false ∧ fl.lt (fl.div 0 d) fl.zero = false
  div_pos : ∀ n d, n ≠ 0 → fl.lt fl.zero (fl.div n d) = true
  div_num : ∀ n d, n ≠ 0 → fl.isNaN (fl.div n d) = false
  /-- `n/0` is infinite: nothing is larger, and every quotient of positive counters is smaller -/
  div_top : ∀ n x, n ≠ 0 → fl.lt (fl.div n 0) x = false
  div_below : ∀ n m d, n ≠ 0 → d ≠ 0 → fl.lt (fl.div m d) (fl.div n 0) = true

/-- fractions, with `0/0` not a number and `n/0` infinite -/
def quotients : Floats (Nat × Nat) where
  lt a b := decide (a.1 * b.2 < b.1 * a.2)
  zero := (0, 1)
  div n d := (n, d)
  isNaN a := decide (a = (0, 0))

/-- the program can get to `w` when started with the subscriptions `sub` -/
def Reaches {F : Type} (c : Config F) (sub : Subs) (w : World F) : Prop :=
  ∃ ls, World.run c (World.start c sub) ls = some w

/-- an engine of this name exists, is built from `sub` and is ready -/
def Usable {F : Type} (c : Config F) (sub : Subs) (w : World F) (n : Str) : Prop :=
  n ∈ c.names ∧ (w.gens n).fsm = .ready ∧ (w.gens n).engine = some sub

end Gosstrak

namespace Gosstrak

/-- messages made by a generator about its own work -/
def Msg.isReport {F : Type} : Msg F → Bool
  | .traffic .. | .status .. => true
  | _ => false

/-- a report the listener has taken and not yet forwarded -/
def Listener.hand {F : Type} : Listener F → List (Msg F)
  | .store n v => [.status n v]
  | .send m => [m]
  | _ => []

end Gosstrak

namespace Gosstrak

/-- events and matches in a traffic report of engine `n` -/
def Msg.trafficOf {F : Type} (n : Str) : Msg F → Option (Nat × Nat)
  | .traffic m e k => if m = n then some (e, k) else none
  | _ => none

/-- the throughput in a status report of engine `n` -/
def Msg.throughputOf {F : Type} (n : Str) : Msg F → Option F
  | .status m v => if m = n then some v else none
  | _ => none

/-- events per microsecond, the duration of every event being rounded down to whole microseconds -/
def throughput {F : Type} (fl : Floats F) (durations : List Nat) : F :=
  fl.div durations.length (durations.map (· / 1000)).sum

/-- events that are not yet in a report -/
def Gen.unreported {F : Type} (g : Gen F) : List Nat :=
  match g.monitor with
  | .waiting | .sendTraffic .. => g.batch
  | _ => []

/-- the intervals whose throughput has been decided on: all but the one being worked on -/
def Gen.rated {F : Type} (g : Gen F) : List (List Nat) :=
  match g.monitor with
  | .compute | .sendStatus _ => g.batches.dropLast
  | _ => g.batches

end Gosstrak

namespace Gosstrak

/-- the generator whose `Search` is running -/
def Searcher.inside : Searcher → Option Str
  | .call n _ | .readMatched n _ | .writeMatched n _ _ | .track n _ => some n
  | _ => none

/-- no search is running in a generator that is busy with its ticker -/
def Apart {F : Type} (w : World F) : Prop :=
  ∀ n, (w.gens n).monitor ≠ .waiting → w.searcher.inside ≠ some n

/-- an execution in which searches and ticks of the same generator never overlap -/
inductive ReachesApart {F : Type} (c : Config F) (sub : Subs) : World F → Prop where
  | start : ReachesApart c sub (World.start c sub)
  | step {w w' : World F} {l : Label} : ReachesApart c sub w → w.crashed = false →
      World.step c w l = some w' → Apart w' → ReachesApart c sub w'

end Gosstrak

namespace Gosstrak

/-- moves that the program makes by itself: no start, no clock, no new search, no message from outside -/
def Label.internal : Label → Bool
  | .init _ | .genTick _ | .tick _ | .search _ | .manageAdd .. | .manageDelete .. => false
  | _ => true

end Gosstrak

namespace Gosstrak

/-- the matches in all traffic reports of engine `n` -/
def reportedMatches {F : Type} (n : Str) (sent : List (Msg F)) : Nat :=
  ((sent.filterMap (Msg.trafficOf n)).map Prod.snd).sum

/-- matches counted and not yet in a report -/
def Gen.unreportedMatches {F : Type} (g : Gen F) : Nat :=
  match g.monitor with
  | .waiting => g.matched
  | .sendTraffic _ m => m
  | _ => 0

/-- 1 while `n` has found something and is about to count it -/
def Searcher.counting (n : Str) : Searcher → Nat
  | .readMatched m _ | .writeMatched m _ _ => if m = n then 1 else 0
  | _ => 0

end Gosstrak

namespace Gosstrak

/-- moves that the program makes without clock, search or message from outside, the start of the
    generators among them -/
def Label.Own (l : Label) : Prop := l.internal = true ∨ ∃ n, l = .init n

/-- nothing is under way -/
structure World.AtRest {F : Type} (c : Config F) (w : World F) : Prop where
  listener : w.listener = .idle
  selector : w.selector = .idle
  searcher : w.searcher = .idle
  queue : w.queue = []
  built : ∀ n ∈ c.names, (w.gens n).builder = .done
  monitors : ∀ n ∈ c.names, (w.gens n).monitor = .waiting

/-- an endless execution: the states and the moves between them -/
structure World.Endless {F : Type} (c : Config F) (s : Nat → World F) (l : Nat → Label) : Prop where
  alive : ∀ i, (s i).crashed = false
  moves : ∀ i, World.step c (s i) (l i) = some (s (i + 1))

end Gosstrak
