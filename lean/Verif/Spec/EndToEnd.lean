import Verif.Spec.Encode
import Verif.Spec.Load
import Verif.Model.ListEngine

/-!
Who is owed a report of a tag, read off the file of subscriptions and the fields of the tag; independent
of bit strings, filters and engines.
-/
namespace Gosstrak

/-- The file gives the report URI this EPC pattern. -/
def FileSubscribes (records : List (List Str)) (uri : Str) (sc : Scheme) (fields : List Str) : Prop :=
  sc.WellFormed fields ∧ "http".toList <+: uri ∧
    ∃ r ∈ records, (r.head?).map toLower = some uri ∧ sc.patternText fields ∈ r.tail

/-- No record is empty, and whatever starts like a pattern is a well-formed EPC pattern. -/
def FileOk (records : List (List Str)) : Prop :=
  ∀ r ∈ records, r ≠ [] ∧ ∀ p ∈ r.tail, "urn:epc:pat:".toList <+: toLower p →
    ∃ sc fields, Scheme.WellFormed sc fields ∧ p = sc.patternText fields

/-- The file has a pattern for the URI whose fields the tag has. -/
def Due (records : List (List Str)) (id : List Byte) (uri : Str) : Prop :=
  ∃ sc fields, FileSubscribes records uri sc fields ∧ sc.Has id fields

/-- Any tag of 96 bits that has the first fields has the second ones. -/
def TagsWithin (sc : Scheme) (fields : List Str) (sc' : Scheme) (fields' : List Str) : Prop :=
  ∀ id : List Byte, id.length = 12 → sc.Has id fields → sc'.Has id fields'

/-- The two patterns select the same tags of 96 bits. -/
def SameTags (sc : Scheme) (fields : List Str) (sc' : Scheme) (fields' : List Str) : Prop :=
  TagsWithin sc fields sc' fields' ∧ TagsWithin sc' fields' sc fields

/-- Two URIs never have patterns that select the same tags. -/
def NoRivals (records : List (List Str)) : Prop :=
  ∀ u v sc f sc' f', FileSubscribes records u sc f → FileSubscribes records v sc' f' →
    SameTags sc f sc' f' → u = v

/-- Some pattern of the file selects a tag that this one does not select. -/
def NotWidest (records : List (List Str)) (sc : Scheme) (fields : List Str) : Prop :=
  ∃ u sc' f', FileSubscribes records u sc' f' ∧ ¬ TagsWithin sc' f' sc fields

/-- The patterns of the URI that select the tag, one for each set of tags that they select. -/
structure DuePatterns (records : List (List Str)) (id : List Byte) (uri : Str)
    (l : List (Scheme × List Str)) : Prop where
  due : ∀ p ∈ l, FileSubscribes records uri p.1 p.2 ∧ p.1.Has id p.2
  all : ∀ sc f, FileSubscribes records uri sc f → sc.Has id f → ∃ p ∈ l, SameTags sc f p.1 p.2
  distinct : l.Pairwise fun p q => ¬ SameTags p.1 p.2 q.1 q.2

/-- The answer of a search reports the tag, with its identity, only to URIs it is due to, and for each
    pattern with property `P` that selects the tag to one of the URIs with such a pattern; if it is
    reported to nobody the answer is an error. -/
def AnswersFor (P : Scheme → List Str → Prop) (records : List (List Str)) (id : List Byte) (ident : Str)
    (r : SearchResult) : Prop :=
  (∀ u ∈ r.reportURIs, Due records id u) ∧
  (∀ u sc fields, FileSubscribes records u sc fields → P sc fields → sc.Has id fields →
    ∃ v ∈ r.reportURIs, ∃ sc' fields', FileSubscribes records v sc' fields' ∧ SameTags sc fields sc' fields') ∧
  (r.reportURIs ≠ [] → r.err = false ∧ r.pureIdentity = ident) ∧ (r.reportURIs = [] → r.err = true)

end Gosstrak
