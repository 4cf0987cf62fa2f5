import Verif.Model.Whole
import Verif.Model.Watched

/-!
`cmd/gosstrak-fc/main.go` `run` with statistics: the program of `Model/Whole.lean` in which the messages of the
factory go through the two goroutines of `Model/Watched.lean` to the database. Only the goroutine of
main.go:135-168 takes messages from the main channel.
-/
namespace Gosstrak
variable {F : Type}

/-- The state of the process: `prog` as in `Model/Whole.lean`, the rest as in `Model/Watched.lean`. -/
structure Monitored (F : Type) where
  prog : Prog F
  holding : Option (StatMessage F)
  stat : StatState F
  writing : Bool

/-- the factory, the two goroutines and the database -/
def Monitored.watched (s : Monitored F) : Watched F := ⟨s.prog.world, s.holding, s.stat, s.writing⟩

/-- the moves -/
inductive MonLabel where
  /-- a move of the program, of the reader or of a clock -/
  | prog (l : ProgLabel)
  /-- a move of the two goroutines or of the database -/
  | watch (l : WatchLabel)

/-- main.go:119-177, stat_manager.go:22-46 -/
def monStart (c : Config F) (sub : Subs) (E : Engines) (flag : Option Int) : Monitored F :=
  ⟨progStart c sub E flag, none, ⟨[], [], false⟩, false⟩

/-- one move; a process that has ended, or whose statistics have ended it, does not move -/
inductive MonStep (env : FcEnv) (c : Config F) (tr : Translator) (percent : Percent F) (accept : Point F → Bool)
    (enabled : Bool) : Monitored F → MonLabel → Monitored F → Prop
  /-- all goroutines but those of main.go:135-168 and stat_manager.go:48-109 -/
  | prog {s : Monitored F} {l : ProgLabel} {p : Prog F} (hd : s.stat.dead = false) (hl : l ≠ .factory .mainRecv)
      (hs : ProgStep env c tr s.prog l p) : MonStep env c tr percent accept enabled s (.prog l) { s with prog := p }
  /-- main.go:135-168, stat_manager.go:48-109 -/
  | watch {s : Monitored F} {l : WatchLabel} {r : Watched F} (he : s.prog.fc.ended = none) (hd : s.stat.dead = false)
      (hl : ∀ k, l ≠ .world k) (hs : Watched.step c percent accept enabled s.watched l = some r) :
      MonStep env c tr percent accept enabled s (.watch l)
        ⟨{ s.prog with world := r.world }, r.holding, r.stat, r.writing⟩

/-- sequences of moves -/
inductive MonRun (env : FcEnv) (c : Config F) (tr : Translator) (percent : Percent F) (accept : Point F → Bool)
    (enabled : Bool) : Monitored F → List MonLabel → Monitored F → Prop
  | nil (s : Monitored F) : MonRun env c tr percent accept enabled s [] s
  | snoc {s t u : Monitored F} {ls : List MonLabel} {l : MonLabel} (h : MonRun env c tr percent accept enabled s ls t)
      (hs : MonStep env c tr percent accept enabled t l u) : MonRun env c tr percent accept enabled s (ls ++ [l]) u

end Gosstrak
