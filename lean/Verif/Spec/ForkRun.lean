import Verif.Spec.MixedRun

/-!
What the engines do on files in which patterns fork: two patterns narrower than a third one, neither within the
other. Read off the file; nothing here refers to filters or trees.
-/
namespace Gosstrak

/-- No pattern of the file asks for more bits than the tag has. -/
def LongFor (records : List (List Str)) (id : List Byte) : Prop :=
  id ≠ [] ∧ ∀ u t f bits, FileGives records u t f → Asks t f bits → bits.length ≤ 8 * id.length

/-- The second pattern is the next narrower one: no pattern of the file is between the two. -/
def NextIn (records : List (List Str)) (p q : Str × List Str) : Prop :=
  PatNarrower q p ∧ ∀ u t f, FileGives records u t f → PatNarrower q (t, f) → PatWithin p.1 p.2 t f

/-- The tag has, where they belong, the bits that the pattern asks for and no wider pattern of the file does. -/
def HasOwn (records : List (List Str)) (t : Str) (f : List Str) (id : List Byte) : Prop :=
  ∀ bits i, Asks t f bits → i < bits.length →
    (∀ u t' f' wider, FileGives records u t' f' → PatNarrower (t, f) (t', f') → Asks t' f' wider →
      wider.length ≤ i) → (bitsOf id)[i]? = bits[i]?

/-- What can be said of an answer of the splay tree whatever was searched before: the patterns reported are each
    the next narrower one of the one before, the tag has what is their own, and either all of them select the tag
    or none does. If the tag is due to anyone, someone is reported. -/
structure SplayAnswer (records : List (List Str)) (e : ReadEvent) (r : SearchResult) : Prop where
  chain : ∃ l : List (Str × Str × List Str), r.reportURIs = l.map Prod.fst ∧
    (∀ p ∈ l, FileGives records p.1 p.2.1 p.2.2 ∧ HasOwn records p.2.1 p.2.2 e.2) ∧
    (∀ i p q, l[i]? = some p → l[i + 1]? = some q → NextIn records p.2 q.2) ∧
    ((∀ p ∈ l, PatSelects p.2.1 p.2.2 e.2) ∨ ∀ p ∈ l, ¬ PatSelects p.2.1 p.2.2 e.2)
  someone : (∃ u, DueIn records e.2 u) → r.reportURIs ≠ []
  identity : r.reportURIs ≠ [] → translate e.1 e.2 = some (r.pureIdentity, r.err)
  nobody : r.reportURIs = [] → r.pureIdentity = [] ∧ r.err = true

/-- The search of the engine for the tag ends the process, whatever was searched before. -/
def MustEnd (records : List (List Str)) (e : ReadEvent) : EngineName → Prop
  | .splay => e.2 = [] ∨ ((∃ u, DueIn records e.2 u) ∧ translate e.1 e.2 = none)
  | n => EndsIn records e n

/-- The search of the engine for the tag ends the process, perhaps depending on what was searched before. -/
def MayEnd (records : List (List Str)) (e : ReadEvent) : EngineName → Prop
  | .splay => ¬ LongFor records e.2 ∨ translate e.1 e.2 = none
  | n => EndsIn records e n

/-- Whenever a tag with an identity is due to anyone, its identity is reported to someone. -/
def NotLost (records : List (List Str)) (p : List ReadEvent × List (Str × List Str)) : Prop :=
  ∀ e ∈ p.1, ∀ i, identityOf e = some i → (∃ u, DueIn records e.2 u) →
    ∃ d ids, mapGet p.2 d = some ids ∧ i ∈ ids

/-- Each destination has only patterns that select the same tags. -/
def OnePatternEach (records : List (List Str)) : Prop :=
  ∀ u t f t' f', FileGives records u t f → FileGives records u t' f' → PatSame t f t' f'

/-- Below a pattern that does not select all tags there is no fork. -/
def NoForkBelow (records : List (List Str)) : Prop :=
  ∀ u v w p a b, FileGives records u p.1 p.2 → FileGives records v a.1 a.2 → FileGives records w b.1 b.2 →
    (∃ id : List Byte, id ≠ [] ∧ ¬ PatSelects p.1 p.2 id) → PatNarrower a p → PatNarrower b p →
    PatWithin a.1 a.2 b.1 b.2 ∨ PatWithin b.1 b.2 a.1 a.2

end Gosstrak
