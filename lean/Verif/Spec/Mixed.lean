import Verif.Spec.Encode
import Verif.Spec.Load
import Verif.Model.ListEngine

/-!
Who is owed a report of a tag, for files with patterns of all standards; independent of bit strings,
filters and engines.
-/
namespace Gosstrak

/-- the characters that a tag is made of if it is read as an ISO tag, padding as `none` -/
def sixBitSymbols (id : List Byte) : List (Option Char) :=
  (List.range (8 * id.length / 6)).map fun i => sixBitChar (field id (6 * i) 6)

/-- the character with which every tag of the scheme starts if it is read as an ISO tag -/
def Scheme.letter : Scheme → Char
  | .giai => 'M'
  | _ => 'L'

/-- The ISO pattern stands for the text `s`: up to three fields of a container pattern or four of an item
    pattern one after the other, or all four of a container pattern with the serial number in six digits
    and a check digit over the first two and the serial number. -/
inductive IsoText : Str → List Str → Str → Prop
  | container (fields : List Str) : 1 ≤ fields.length → fields.length ≤ 3 → IsSixBit fields.flatten →
      IsoText "iso17363".toList fields fields.flatten
  | complete (d o e c : Str) : IsCode d → IsCode o → IsSixBit e → IsCode c → c.length ≤ 6 →
      d.length + o.length = 4 → IsoText "iso17363".toList [d, o, e, c]
        (d ++ o ++ e ++ sixDigits c ++ [Char.ofNat (48 + checkDigit (d ++ o ++ sixDigits c))])
  | item (fields : List Str) : 1 ≤ fields.length → fields.length ≤ 4 → IsSixBit fields.flatten →
      IsoText "iso17365".toList fields fields.flatten

/-- No filter can be made of the pattern: it is of no known kind, has too many fields, or is a complete
    container pattern with a serial number of more than six characters or with data identifier and owner
    code that together do not have four. -/
inductive Useless : Str → List Str → Prop
  | epc (sc : Scheme) (fields : List Str) : (if sc.hasSerial then 4 else 3) < fields.length →
      Useless sc.typeName fields
  | container (fields : List Str) : 4 < fields.length → Useless "iso17363".toList fields
  | complete (d o e c : Str) : 6 < c.length ∨ d.length + o.length ≠ 4 →
      Useless "iso17363".toList [d, o, e, c]
  | item (fields : List Str) : 4 < fields.length → Useless "iso17365".toList fields
  | unknown (t : Str) (fields : List Str) : (∀ sc : Scheme, t ≠ sc.typeName) → t ≠ "iso17363".toList →
      t ≠ "iso17365".toList → Useless t fields

/-- A pattern of kind `t` with these fields: an EPC pattern with fields that fit, an ISO pattern of
    characters of the six-bit alphabet, or one of which no filter can be made. -/
def PatKnown (t : Str) (fields : List Str) : Prop :=
  (∃ sc : Scheme, t = sc.typeName ∧ sc.Encodable fields) ∨ (∃ s, IsoText t fields s) ∨ Useless t fields

/-- The tags that a pattern selects: those that have the fields of an EPC pattern, whatever may follow the
    tag; those whose text starts with the text of an ISO pattern; all, if no filter can be made of it. -/
def PatSelects (t : Str) (fields : List Str) (id : List Byte) : Prop :=
  (∃ sc : Scheme, t = sc.typeName ∧ sc.Encodable fields ∧ ∀ more, sc.Has (id ++ more) fields) ∨
  (∃ s, IsoText t fields s ∧ s.map some <+: sixBitSymbols id) ∨ Useless t fields

/-- The tag ends where the pattern still asks for something: it is not selected, but would be if it
    went on. -/
def PatCut (t : Str) (fields : List Str) (id : List Byte) : Prop :=
  ¬ PatSelects t fields id ∧ ∃ more, PatSelects t fields (id ++ more)

/-- The file gives the report URI a pattern of kind `t` with these fields. -/
def FileGives (records : List (List Str)) (uri t : Str) (fields : List Str) : Prop :=
  "http".toList <+: uri ∧ ∃ r ∈ records, (r.head?).map toLower = some uri ∧
    ∃ p ∈ r.tail, "urn:epc:pat:".toList <+: toLower p ∧ PatternOf p t fields

/-- No record is empty, and every pattern with a kind and fields is known. -/
def FileFine (records : List (List Str)) : Prop :=
  ∀ r ∈ records, r ≠ [] ∧ ∀ p ∈ r.tail, "urn:epc:pat:".toList <+: toLower p →
    ∀ t fields, PatternOf p t fields → PatKnown t fields

/-- The file has a pattern for the URI that selects the tag. -/
def DueIn (records : List (List Str)) (id : List Byte) (uri : Str) : Prop :=
  ∃ t fields, FileGives records uri t fields ∧ PatSelects t fields id

/-- The tag ends inside a pattern of the file. -/
def CutIn (records : List (List Str)) (id : List Byte) : Prop :=
  ∃ uri t fields, FileGives records uri t fields ∧ PatCut t fields id

/-- Every tag that the first pattern selects is selected by the second. -/
def PatWithin (t : Str) (fields : List Str) (t' : Str) (fields' : List Str) : Prop :=
  ∀ id : List Byte, id ≠ [] → PatSelects t fields id → PatSelects t' fields' id

/-- The two patterns select the same tags. -/
def PatSame (t : Str) (fields : List Str) (t' : Str) (fields' : List Str) : Prop :=
  PatWithin t fields t' fields' ∧ PatWithin t' fields' t fields

/-- Two URIs never have patterns that select the same tags. -/
def NoDoubles (records : List (List Str)) : Prop :=
  ∀ u v t f t' f', FileGives records u t f → FileGives records v t' f' → PatSame t f t' f' → u = v

/-- Some pattern of the file selects a tag that this one does not select. -/
def NotAll (records : List (List Str)) (t : Str) (fields : List Str) : Prop :=
  ∃ u t' f', FileGives records u t' f' ∧ ¬ PatWithin t' f' t fields

/-- The patterns of the URI that select the tag, one for each set of tags that they select. -/
structure DueList (records : List (List Str)) (id : List Byte) (uri : Str)
    (l : List (Str × List Str)) : Prop where
  due : ∀ p ∈ l, FileGives records uri p.1 p.2 ∧ PatSelects p.1 p.2 id
  all : ∀ t f, FileGives records uri t f → PatSelects t f id → ∃ p ∈ l, PatSame t f p.1 p.2
  distinct : l.Pairwise fun p q => ¬ PatSame p.1 p.2 q.1 q.2

/-- The answer of a search reports the tag, with its identity, only to URIs it is due to, and for each
    pattern with property `P` that selects the tag to one of the URIs with such a pattern; if it is
    reported to nobody the answer is an error. -/
def AnswersIn (P : Str → List Str → Prop) (records : List (List Str)) (id : List Byte) (ident : Str)
    (r : SearchResult) : Prop :=
  (∀ u ∈ r.reportURIs, DueIn records id u) ∧
  (∀ u t f, FileGives records u t f → P t f → PatSelects t f id →
    ∃ v ∈ r.reportURIs, ∃ t' f', FileGives records v t' f' ∧ PatSame t f t' f') ∧
  (r.reportURIs ≠ [] → r.err = false ∧ r.pureIdentity = ident) ∧ (r.reportURIs = [] → r.err = true)

end Gosstrak
