import Verif.Model.Engines
import Verif.Model.Factory

/-!
`cmd/gosstrak-fc/main.go` `run` with all its goroutines: those of `main.go` (`Model/FcRun.lean`), those of the
engine factory and its generators (`Model/Factory.lean`), and the four engines themselves
(`Model/Engines.lean`). The searching goroutine is inside `EngineFactory.Search` while `world.searcher` is not
idle; each engine is searched in a step of its own, between which all other goroutines can move.

The order in which each constructor goes through the map of subscriptions is chosen at the start instead of at
the moment of the construction; the map is not written in between. `fc.factory` are the contents of the engines.
Nothing of `main.go` after line 177 moves before the factory is active.
-/
namespace Gosstrak

/-- filtering/engine.go:34-39: the keys of `AvailableEngines` -/
def EngineName.text : EngineName → Str
  | .legacy => "LegacyEngine".toList
  | .list => "List".toList
  | .patricia => "PatriciaTrie".toList
  | .splay => "SplayTree".toList

/-- The state of the process. `answer` is what the last search of an engine returned. `chosen` is not in the
    code: the names of the engines whose answers have been asked for (engine_factory.go:46), one for each call. -/
structure Prog (F : Type) where
  world : World F
  fc : Fc Engines
  answer : Option SearchResult
  chosen : List Str

/-- the moves -/
inductive ProgLabel where
  /-- a move of the reader, the message loop or the searching goroutine outside of a search -/
  | fc (l : FcLabel)
  /-- a move of the factory, its generators, or the searching goroutine inside of a search -/
  | factory (l : Label)
  /-- the search of an engine panics -/
  | panic

variable {F : Type}

/-- main.go:119-177: the start, with these engines to come -/
def progStart (c : Config F) (sub : Subs) (E : Engines) (flag : Option Int) : Prog F :=
  ⟨World.start c sub, fcStart E flag, none, []⟩

/-- no search returns at once -/
def noAnswer : AnswerRel Engines := fun _ _ _ => False

/-- the moves of the factory in which neither a call of its `Search` begins or returns, nor an engine is
    searched or chosen for the answer -/
def Label.Aside (w : World F) : Label → Prop
  | .search _ => False
  | .engineSearch _ => False
  | .searchNext => w.searcher ≠ .range []
  | .track _ => ∀ n, w.searcher ≠ .track n none
  | _ => True

/-- the factory has moved; a nil pointer there ends the process -/
def Prog.moved (s : Prog F) (w : World F) : Prog F :=
  { s with world := w, fc := if w.crashed then { s.fc with ended := some .panic } else s.fc }

/-- the moves of the program, of the reader and of the clocks -/
inductive ProgStep (env : FcEnv) (c : Config F) (tr : Translator) : Prog F → ProgLabel → Prog F → Prop
  /-- main.go:215-303, outside of line 228 -/
  | fc {s : Prog F} {l : FcLabel} {f : Fc Engines} (ha : s.world.isActive = true)
      (hf : FcStep env noAnswer s.fc l f) : ProgStep env c tr s (.fc l) { s with fc := f }
  /-- engine_factory.go:85-203, engine_generator.go:68-161 and, of the searches, the counting -/
  | aside {s : Prog F} {l : Label} {w : World F} (he : s.fc.ended = none) (hl : l.Aside s.world)
      (hw : World.step c s.world l = some w) : ProgStep env c tr s (.factory l) (s.moved w)
  /-- main.go:228: a search begins -/
  | call {s : Prog F} {order : List Str} {w : World F} {batch todo : List ReadEvent} {e : ReadEvent}
      {reports : List (Str × List Str)} (he : s.fc.ended = none)
      (hl : s.fc.listener = .searching batch (e :: todo) reports)
      (hw : World.step c s.world (.search order) = some w) :
      ProgStep env c tr s (.factory (.search order)) (s.moved w)
  /-- engine_factory.go:46: the engine is chosen whose answer is returned -/
  | choose {s : Prog F} {w : World F} (he : s.fc.ended = none) (hs : s.world.searcher = .range [])
      (hw : World.step c s.world .searchNext = some w) :
      ProgStep env c tr s (.factory .searchNext) { s.moved w with chosen := s.chosen ++ [s.world.current] }
  /-- engine_generator.go:110-113: an engine is searched -/
  | engine {s : Prog F} {w : World F} {batch todo : List ReadEvent} {e : ReadEvent}
      {reports : List (Str × List Str)} {n : EngineName} {rest : Option (List Str)} {q : SearchResult} {E : Engines}
      (he : s.fc.ended = none) (hl : s.fc.listener = .searching batch (e :: todo) reports)
      (hs : s.world.searcher = .call n.text rest) (hq : EngineSearch tr s.fc.factory e n (some (q, E)))
      (hw : World.step c s.world (.engineSearch (decide (q.reportURIs ≠ []))) = some w) :
      ProgStep env c tr s (.factory (.engineSearch (decide (q.reportURIs ≠ []))))
        ({ s with fc := { s.fc with factory := E }, answer := some q }.moved w)
  /-- engine_generator.go:110 -/
  | panic {s : Prog F} {batch todo : List ReadEvent} {e : ReadEvent}
      {reports : List (Str × List Str)} {n : EngineName} {rest : Option (List Str)}
      (he : s.fc.ended = none) (hl : s.fc.listener = .searching batch (e :: todo) reports)
      (hs : s.world.searcher = .call n.text rest) (hq : EngineSearch tr s.fc.factory e n none) :
      ProgStep env c tr s .panic { s with fc := { s.fc with ended := some .panic } }
  /-- engine_generator.go:109, 114, engine_factory.go:46, main.go:228-238: the search returns -/
  | ret {s : Prog F} {t : Nat} {w : World F} {batch todo : List ReadEvent} {e : ReadEvent}
      {reports : List (Str × List Str)} {n : Str} {q : SearchResult}
      (he : s.fc.ended = none) (hl : s.fc.listener = .searching batch (e :: todo) reports)
      (hs : s.world.searcher = .track n none) (hq : s.answer = some q)
      (hw : World.step c s.world (.track t) = some w) :
      ProgStep env c tr s (.factory (.track t))
        { s with world := w, fc := { s.fc with listener := .searching batch todo (fcCollect reports q) } }

/-- sequences of moves -/
inductive ProgRun (env : FcEnv) (c : Config F) (tr : Translator) : Prog F → List ProgLabel → Prog F → Prop
  | nil (s : Prog F) : ProgRun env c tr s [] s
  | snoc {s t u : Prog F} {ls : List ProgLabel} {l : ProgLabel} (h : ProgRun env c tr s ls t)
      (hs : ProgStep env c tr t l u) : ProgRun env c tr s (ls ++ [l]) u

end Gosstrak
