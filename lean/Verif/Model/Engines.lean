import Verif.Model.FcRun
import Verif.Model.Legacy
import Verif.Model.Patricia
import Verif.Model.Splay
import Verif.Model.Translate

/-!
`filtering/engine_factory.go:40-47` `Search` with the four engines of `AvailableEngines`.

The names of the engines searched besides the selected one are a parameter: any list, since the map is gone
through in any order, only engines that are ready are searched, and the selected engine may change meanwhile
(see `Model/Factory.lean` and C75 for what the list can be). The timing and counting of the generators
(engine_generator.go:108-115) is in `Model/Factory.lean` and left out here.
-/
namespace Gosstrak

/-- filtering/engine.go:34-39: the keys of `AvailableEngines` -/
inductive EngineName where
  | legacy
  | list
  | patricia
  | splay
deriving DecidableEq

/-- the four engines once they are built -/
structure Engines where
  legacy : Subs
  list : ListEngine
  patricia : PNode
  splay : SNode

/-- The four constructors, each going through the map of subscriptions in an order of its own (`NewLegacyEngine`
    clones the map, see C10). -/
def newEngines (mk : Encoder) (sub orderList orderPatricia orderSplay : Subs) : Option Engines :=
  (newSplay mk orderSplay).map fun t =>
    ⟨sub, newList mk orderList, newPatricia mk orderPatricia, t⟩

/-- filtering/engine_generator.go:108-115 `Search`: the search of one engine. Only the splay tree changes; the
    legacy engine goes through its map in any order. `none` is a panic. -/
inductive EngineSearch (tr : Translator) (E : Engines) (e : ReadEvent) :
    EngineName → Option (SearchResult × Engines) → Prop
  | legacy (order : Subs) (h : order.Perm E.legacy) :
      EngineSearch tr E e .legacy ((legacySearch tr order e.1 e.2).map (·, E))
  | list : EngineSearch tr E e .list ((E.list.search tr e.1 e.2).map (·, E))
  | patricia : EngineSearch tr E e .patricia ((E.patricia.searchEngine tr e.1 e.2).map (·, E))
  | splay : EngineSearch tr E e .splay
      ((E.splay.searchEngine tr e.1 e.2).map fun p => (p.1, { E with splay := p.2 }))

/-- filtering/engine_factory.go:40-47 `Search`: the other engines, then the selected one, whose answer is
    returned -/
inductive FactorySearch (tr : Translator) (e : ReadEvent) (selected : EngineName) :
    Engines → List EngineName → Option (SearchResult × Engines) → Prop
  | selected {E : Engines} {r : Option (SearchResult × Engines)} (h : EngineSearch tr E e selected r) :
      FactorySearch tr e selected E [] r
  | other {E E' : Engines} {n : EngineName} {others : List EngineName} {q : SearchResult}
      {r : Option (SearchResult × Engines)} (h : EngineSearch tr E e n (some (q, E')))
      (t : FactorySearch tr e selected E' others r) : FactorySearch tr e selected E (n :: others) r
  | panic {E : Engines} {n : EngineName} {others : List EngineName} (h : EngineSearch tr E e n none) :
      FactorySearch tr e selected E (n :: others) none

/-- What the factory answers: `can others selected` says which engines may be searched. -/
def enginesAnswer (tr : Translator) (can : List EngineName → EngineName → Prop) : AnswerRel Engines :=
  fun E e r => ∃ others selected, can others selected ∧ FactorySearch tr e selected E others r

end Gosstrak
