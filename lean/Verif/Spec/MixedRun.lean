import Verif.Spec.Mixed
import Verif.Spec.Engines

/-!
What each engine does with each tag, for files with patterns of all standards and tags of all lengths, read
off the file.
-/
namespace Gosstrak

/-- The first pattern selects only tags that the second one selects, and not all of them. -/
def PatNarrower (p q : Str × List Str) : Prop := PatWithin p.1 p.2 q.1 q.2 ∧ ¬ PatWithin q.1 q.2 p.1 p.2

/-- Of two patterns narrower than a third one, one is within the other. -/
def PatNoForks (records : List (List Str)) : Prop :=
  ∀ u v w p a b, FileGives records u p.1 p.2 → FileGives records v a.1 a.2 → FileGives records w b.1 b.2 →
    PatNarrower a p → PatNarrower b p → PatWithin a.1 a.2 b.1 b.2 ∨ PatWithin b.1 b.2 a.1 a.2

/-- No pattern selects every tag that any pattern of the file selects. -/
def NoneAll (records : List (List Str)) : Prop := ∀ u t f, FileGives records u t f → NotAll records t f

/-- Every tag that the pattern selects starts with these bits. -/
def Asks (t : Str) (fields : List Str) (bits : Str) : Prop :=
  ∀ id : List Byte, id ≠ [] → PatSelects t fields id → bits <+: bitsOf id

/-- The tag ends on the way to a pattern, and all patterns that ask for its bits ask for the same next bit. -/
def OnBranch (records : List (List Str)) (id : List Byte) : Prop :=
  ∃ c, (∃ u t f, FileGives records u t f ∧ Asks t f (bitsOf id ++ [c])) ∧
    ∀ u t f, FileGives records u t f → Asks t f (bitsOf id) → Asks t f (bitsOf id ++ [c])

/-- The search of the engine for the tag ends the process: in the legacy engine if the translation of the tag
    panics, in the others if the tag is empty, if it ends where patterns go on (in any of them, or for the trie
    in all), or if it is selected and its translation panics. -/
def EndsIn (records : List (List Str)) (e : ReadEvent) : EngineName → Prop
  | .legacy => translate e.1 e.2 = none
  | .list => e.2 = [] ∨ CutIn records e.2 ∨ ((∃ u, DueIn records e.2 u) ∧ translate e.1 e.2 = none)
  | .splay => e.2 = [] ∨ CutIn records e.2 ∨ ((∃ u, DueIn records e.2 u) ∧ translate e.1 e.2 = none)
  | .patricia => e.2 = [] ∨ OnBranch records e.2 ∨
      ((∃ u t f, FileGives records u t f ∧ NotAll records t f ∧ PatSelects t f e.2) ∧ translate e.1 e.2 = none)

/-- The answer reports the tag only to URIs it is due to, and for each pattern with property `P` that selects it
    to one of the URIs with such a pattern; with what the translation says of the tag if it is reported to
    anyone, as an error otherwise. -/
def AnswersWith (P : Str → List Str → Prop) (records : List (List Str)) (e : ReadEvent) (r : SearchResult) : Prop :=
  (∀ u ∈ r.reportURIs, DueIn records e.2 u) ∧
  (∀ u t f, FileGives records u t f → P t f → PatSelects t f e.2 →
    ∃ v ∈ r.reportURIs, ∃ t' f', FileGives records v t' f' ∧ PatSame t f t' f') ∧
  (r.reportURIs ≠ [] → translate e.1 e.2 = some (r.pureIdentity, r.err)) ∧
  (r.reportURIs = [] → r.pureIdentity = [] ∧ r.err = true)

/-- the answer of the engine -/
def GivesAnswer (records : List (List Str)) (e : ReadEvent) (r : SearchResult) : EngineName → Prop
  | .list => AnswersWith (fun _ _ => True) records e r
  | .splay => AnswersWith (fun _ _ => True) records e r
  | .patricia => AnswersWith (NotAll records) records e r
  | .legacy => ∃ fails, translate e.1 e.2 = some (r.pureIdentity, fails) ∧ (r.err = true ↔ r.reportURIs = []) ∧
      ∀ u, u ∈ r.reportURIs ↔ fails = false ∧ "http".toList <+: u ∧
        ∃ rec ∈ records, (rec.head?).map toLower = some u ∧
          ∃ p ∈ rec.tail, "urn:epc:pat:".toList <+: toLower p ∧ TextMatches r.pureIdentity p

/-- the identity of a tag, if it has one -/
def identityOf (e : ReadEvent) : Option Str :=
  match translate e.1 e.2 with
  | some (i, false) => some i
  | _ => none

/-- Whoever a tag is due to gets its identity, if it has one, once for each set of tags that the patterns of
    the destination that select it stand for. -/
def Delivered (records : List (List Str)) (p : List ReadEvent × List (Str × List Str)) : Prop :=
  ∀ d, (mapGet p.2 d = none ↔ ∀ e ∈ p.1, identityOf e ≠ none → ¬ DueIn records e.2 d) ∧
    ∃ n : ReadEvent → Nat, (∀ e ∈ p.1, ∃ l, DueList records e.2 d l ∧ n e = l.length) ∧
      (mapGet p.2 d).getD [] = p.1.flatMap fun e => (identityOf e).toList.flatMap (List.replicate (n e))

end Gosstrak
