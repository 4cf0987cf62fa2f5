import Verif.Model.Monitored
import Verif.Model.Generate

/-!
What is around the filtering: the management port of `cmd/gosstrak-fc/main.go`, the program `cmd/ale-ec` that accepts
connections in the same way, and the command `scheme/sixenc2bin`.

A connection that is served has its bytes mirrored by a goroutine of the library (`MirrorStreamHandler`), which has no
part in the rest of the program; only their number is kept. `spdystream.NewConnection` succeeds or fails.
-/
namespace Gosstrak
variable {F : Type}

/-- The state of the process: `mon` as in `Model/Monitored.lean`, whether the management port is open
    (main.go:182), and how many connections have been given to the library (main.go:197). -/
structure Managed (F : Type) where
  mon : Monitored F
  listening : Bool
  served : Nat

/-- the moves -/
inductive ManLabel where
  /-- a move of all other goroutines, of the reader, a clock or the database -/
  | mon (l : MonLabel)
  /-- main.go:182: the port is opened, or not -/
  | listen (ok : Bool)
  /-- main.go:187-197: a connection comes and becomes one of the library, or not -/
  | connect (ok : Bool)
  /-- main.go:187-189: `Accept` fails -/
  | acceptFails

/-- `log.Fatal` -/
def Monitored.die (s : Monitored F) : Monitored F :=
  { s with prog := { s.prog with fc := { s.prog.fc with ended := some .fatal } } }

/-- main.go:119-177 -/
def manStart (c : Config F) (sub : Subs) (E : Engines) (flag : Option Int) : Managed F :=
  ⟨monStart c sub E flag, false, 0⟩

/-- the process has not ended and is past main.go:177 -/
def Managed.up (s : Managed F) : Prop :=
  s.mon.prog.fc.ended = none ∧ s.mon.stat.dead = false ∧ s.mon.prog.world.isActive = true

/-- one move -/
inductive ManStep (env : FcEnv) (c : Config F) (tr : Translator) (percent : Percent F) (accept : Point F → Bool)
    (enabled : Bool) : Managed F → ManLabel → Managed F → Prop
  /-- all other goroutines -/
  | mon {s : Managed F} {l : MonLabel} {t : Monitored F} (hs : MonStep env c tr percent accept enabled s.mon l t) :
      ManStep env c tr percent accept enabled s (.mon l) { s with mon := t }
  /-- main.go:182 -/
  | listen {s : Managed F} (hu : s.up) (hl : s.listening = false) :
      ManStep env c tr percent accept enabled s (.listen true) { s with listening := true }
  /-- main.go:183-185 -/
  | noListen {s : Managed F} (hu : s.up) (hl : s.listening = false) :
      ManStep env c tr percent accept enabled s (.listen false) { s with mon := s.mon.die }
  /-- main.go:192-197 -/
  | connect {s : Managed F} (hu : s.up) (hl : s.listening = true) :
      ManStep env c tr percent accept enabled s (.connect true) { s with served := s.served + 1 }
  /-- main.go:193-196 -/
  | noConnect {s : Managed F} (hu : s.up) (hl : s.listening = true) :
      ManStep env c tr percent accept enabled s (.connect false) s
  /-- main.go:188-189 -/
  | acceptFails {s : Managed F} (hu : s.up) (hl : s.listening = true) :
      ManStep env c tr percent accept enabled s .acceptFails { s with mon := s.mon.die }

/-- sequences of moves -/
inductive ManRun (env : FcEnv) (c : Config F) (tr : Translator) (percent : Percent F) (accept : Point F → Bool)
    (enabled : Bool) : Managed F → List ManLabel → Managed F → Prop
  | nil (s : Managed F) : ManRun env c tr percent accept enabled s [] s
  | snoc {s t u : Managed F} {ls : List ManLabel} {l : ManLabel} (h : ManRun env c tr percent accept enabled s ls t)
      (hs : ManStep env c tr percent accept enabled t l u) : ManRun env c tr percent accept enabled s (ls ++ [l]) u

/-- what `Accept` and `NewConnection` do in `cmd/ale-ec/main.go` -/
inductive Accepted where
  /-- cmd/ale-ec/main.go:41-45 -/
  | failed
  /-- cmd/ale-ec/main.go:47-52 -/
  | conn (ok : Bool)
deriving DecidableEq

/-- cmd/ale-ec/main.go:40-77: the number of connections given to the library, and whether the loop has been left, with
    which the program returns -/
def aleLoop : List Accepted → Nat × Bool
  | [] => (0, false)
  | .failed :: _ => (0, true)
  | .conn ok :: rest =>
    let r := aleLoop rest
    ((if ok then r.1 + 1 else r.1), r.2)

/-- how a command ends, with what it has printed -/
inductive CommandEnd where
  | done (out : Str)
  | panic (out : Str)
deriving DecidableEq

/-- scheme/sixenc2bin/main.go:19-24; `args` is `os.Args`, `fmt` is `Printf` with a format and no values -/
def sixencMain (x : Binutil) (fmt : Str → Str) (args : List Str) : CommandEnd :=
  let out := if args.length < 1 then "Must pass a string input\n".toList else []
  match args[1]? with
  | none => .panic out
  | some a => .done (out ++ fmt (x.sixenc2bin [] a))

end Gosstrak
