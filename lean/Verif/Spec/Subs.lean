import Verif.Model.Subs
import Verif.Spec.Bits

/-!
Specification vocabulary for subscription maps and patterns, independent of the conversion loops.
-/
namespace Gosstrak

/-- `parts` are the pieces of `s` between the separators `c`. -/
def Pieces (c : Char) (s : Str) (parts : List Str) : Prop :=
  parts ≠ [] ∧ (∀ p ∈ parts, c ∉ p) ∧ s = [c].intercalate parts

/-- `body` is `s` without the leading `p`, if it has one. -/
def Stripped (p s body : Str) : Prop := s = p ++ body ∨ (¬ p <+: s ∧ s = body)

/-- The pattern consists of a scheme `t` and of fields, i.e. it reads
    `urn:epc:pat:<t>:<field>.<field>...` (the prefix may be missing). -/
def PatternOf (pat t : Str) (fields : List Str) : Prop :=
  ∃ body f, Stripped "urn:epc:pat:".toList pat body ∧ Pieces ':' body [t, f] ∧
    Pieces '.' (toUpper f) fields

/-- `uri` subscribes in `sub` with a pattern whose encoding is `k`. -/
def Subscribes (mk : Encoder) (sub : Subs) (uri k : Str) : Prop :=
  ∃ pats, (uri, pats) ∈ sub ∧ ∃ pat ∈ pats, ∃ t fields, PatternOf pat t fields ∧
    (mk t fields = some k ∨ (mk t fields = none ∧ k = []))

/-- distinct keys, as in every Go map -/
def IsMap {α : Type} (m : List (Str × α)) : Prop := (m.map Prod.fst).Nodup

instance {α : Type} (m : List (Str × α)) : Decidable (IsMap m) := by
  unfold IsMap; infer_instance

/-- The reports due for an ID: the filters (keys of the converted map) that start the ID's bits, in
    ascending order, each with its URI. -/
def ReportsInKeyOrder (bsub : FlatSubs) (id : List Byte) (uris : List Str) : Prop :=
  ∃ hits : FlatSubs, (hits.map Prod.fst).Pairwise (· < ·) ∧
    (∀ k u, (k, u) ∈ hits ↔ (k, u) ∈ bsub ∧ k <+: bitsOf id) ∧ uris = hits.map Prod.snd

/-- every filter is a bit string and fits into the ID -/
def Covered (bsub : FlatSubs) (id : List Byte) : Prop :=
  ∀ k u, (k, u) ∈ bsub → IsBitStr k ∧ Covers k 0 id

end Gosstrak
