import Verif.Model.Engines
import Verif.Spec.EndToEnd
import Verif.Spec.Legacy

/-!
What a search answers depending on the selected engine, read off the file of subscriptions.
-/
namespace Gosstrak

/-- The first pattern selects only tags that the second one selects, and not all of them. -/
def Narrower (p q : Scheme × List Str) : Prop := TagsWithin p.1 p.2 q.1 q.2 ∧ ¬ TagsWithin q.1 q.2 p.1 p.2

/-- Of two patterns narrower than a third one, one is within the other. -/
def FileNoForks (records : List (List Str)) : Prop :=
  ∀ u v w p a b, FileSubscribes records u p.1 p.2 → FileSubscribes records v a.1 a.2 →
    FileSubscribes records w b.1 b.2 → Narrower a p → Narrower b p →
    TagsWithin a.1 a.2 b.1 b.2 ∨ TagsWithin b.1 b.2 a.1 a.2

/-- No pattern selects every tag that any pattern of the file selects. -/
def NoWidest (records : List (List Str)) : Prop :=
  ∀ u sc f, FileSubscribes records u sc f → NotWidest records sc f

/-- the answer for a tag with an identity, by the selected engine -/
def AnswersAs (records : List (List Str)) (id : List Byte) (ident : Str) (r : SearchResult) : EngineName → Prop
  | .list => AnswersFor (fun _ _ => True) records id ident r
  | .patricia => AnswersFor (NotWidest records) records id ident r
  | .splay => FileNoForks records → AnswersFor (fun _ _ => True) records id ident r
  | .legacy => r.pureIdentity = ident ∧ (r.err = true ↔ r.reportURIs = []) ∧
      ∀ u, u ∈ r.reportURIs ↔ ∃ sc fields, FileSubscribes records u sc fields ∧
        TextMatches ident (sc.patternText fields)

/-- a tag of 96 bits with this identity -/
def ReadEvent.Has (e : ReadEvent) (ident : Str) : Prop := e.2.length = 12 ∧ translate e.1 e.2 = some (ident, false)

end Gosstrak
