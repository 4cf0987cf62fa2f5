import Verif.Spec.Random
import Verif.Spec.Subs
import Verif.Model.Draws

/-! What a pattern leaves to chance. -/
namespace Gosstrak

/-- what is expected of a generator of random bits: the length asked for and a value below the bound -/
structure Toss.Fair (d : Toss) : Prop where
  bits : ∀ i n m, IsBitStr (d i n m) ∧ (d i n m).length = n
  below : ∀ i n m, 0 < m → binVal (d i n m) < m

/-- An empty second field behind this company prefix is drawn among several values: there is a row for
    its length, with at least one digit. Only a GRAI with a company prefix of 12 digits has none. -/
def Scheme.RefVaries (sc : Scheme) (cp : Str) : Prop :=
  6 ≤ cp.length ∧ cp.length ≤ 12 ∧ 0 < sc.refDigits cp

/-- one of the fields is left to chance -/
def Scheme.LeavesOpen (sc : Scheme) : List Str → Prop
  | [fv] => fv = []
  | [fv, _] => fv = []
  | [fv, cp, ref] => fv = [] ∨ ref = [] ∧ sc.RefVaries cp
  | [fv, cp, ref, ser] => sc.hasSerial ∧ (fv = [] ∨ ref = [] ∧ sc.RefVaries cp ∨ ser = [])
  | _ => False

/-- The pattern is one of an EPC scheme and leaves a field to chance. -/
def LeftOpen (pat : Str) : Prop :=
  ∃ (sc : Scheme) (fields : List Str), PatternOf pat sc.typeName fields ∧ sc.LeavesOpen fields

/-- no pattern leaves a field to chance -/
def Settled (sub : Subs) : Prop := ∀ e ∈ sub, ∀ pat ∈ e.2, ¬ LeftOpen pat

/-- the subscriptions of a call -/
def SubsOp.subs : SubsOp → Subs
  | .add s => s
  | .delete s => s

/-- the subscriptions of a call on the splay tree -/
def SplayCall.subs : SplayCall → Subs
  | .add s => s
  | .delete s => s
  | .search _ => []

/-- the field `g`, which is `f` unless that is empty -/
def FilledIn (P : Str → Prop) (f g : Str) : Prop := if f = [] then P g else g = f

/-- These are the fields of the pattern with well-formed values for those that are left out: a filter
    value up to 6, a second field with the digits there are, a serial of 38 bits. -/
def Scheme.Fills (sc : Scheme) : List Str → List Str → Prop
  | [fv], [fv'] => FilledIn (fun v => IsFilterValue v ∧ decVal v < 7) fv fv'
  | [fv, cp], [fv', cp'] => FilledIn (fun v => IsFilterValue v ∧ decVal v < 7) fv fv' ∧ cp' = cp
  | [fv, cp, ref], [fv', cp', ref'] =>
    FilledIn (fun v => IsFilterValue v ∧ decVal v < 7) fv fv' ∧ cp' = cp ∧
      FilledIn (fun v => sc.Canonical cp v ∧ decVal v < 10 ^ sc.refDigits cp) ref ref'
  | [fv, cp, ref, ser], [fv', cp', ref', ser'] =>
    FilledIn (fun v => IsFilterValue v ∧ decVal v < 7) fv fv' ∧ cp' = cp ∧
      FilledIn (fun v => sc.Canonical cp v ∧ decVal v < 10 ^ sc.refDigits cp) ref ref' ∧
      FilledIn (fun v => Numeral (decVal v) v ∧ decVal v < 2 ^ 38) ser ser'
  | _, _ => False

/-- well-formed fields of which filter value, second field and serial may be left out -/
def Scheme.Fillable (sc : Scheme) : List Str → Prop
  | [fv] => fv = [] ∨ IsFilterValue fv
  | [fv, cp] => (fv = [] ∨ IsFilterValue fv) ∧ IsCompanyPrefix cp
  | [fv, cp, ref] => (fv = [] ∨ IsFilterValue fv) ∧ IsCompanyPrefix cp ∧
      (ref = [] ∧ 0 < sc.refDigits cp ∨ sc.Canonical cp ref)
  | [fv, cp, ref, ser] => (fv = [] ∨ IsFilterValue fv) ∧ IsCompanyPrefix cp ∧
      (ref = [] ∧ 0 < sc.refDigits cp ∨ sc.Canonical cp ref) ∧ sc.hasSerial ∧
      (ser = [] ∨ Numeral (decVal ser) ser ∧ decVal ser < 2 ^ 38)
  | _ => False

/-- The second pattern is the first one with well-formed values for what it leaves to chance. -/
def FillsPattern (pat pat' : Str) : Prop :=
  (∃ (sc : Scheme) (fields fields' : List Str), sc.Fillable fields ∧ sc.Fills fields fields' ∧
    pat = sc.patternText fields ∧ pat' = sc.patternText fields') ∨
  (¬ LeftOpen pat ∧ pat' = pat)

/-- the same for the patterns of a subscription, one by one -/
def FillsPatterns : List Str → List Str → Prop
  | [], [] => True
  | p :: ps, q :: qs => FillsPattern p q ∧ FillsPatterns ps qs
  | _, _ => False

/-- the same for all subscriptions, one by one -/
def FillsSubs : Subs → Subs → Prop
  | [], [] => True
  | e :: s, f :: t => f.1 = e.1 ∧ FillsPatterns e.2 f.2 ∧ FillsSubs s t
  | _, _ => False

/-- Every pattern is well-formed but for fields left out, or leaves nothing to chance. -/
def FillableSubs (sub : Subs) : Prop :=
  ∀ e ∈ sub, ∀ pat ∈ e.2, ¬ LeftOpen pat ∨ ∃ (sc : Scheme) (fields : List Str),
    sc.Fillable fields ∧ pat = sc.patternText fields

/-- a generator that always draws 0 -/
def zeroToss : Toss := fun _ n _ => List.replicate n '0'

/-- a generator that always draws 1 if it can -/
def oneToss : Toss := fun _ n m =>
  if 2 ≤ m ∧ 0 < n then List.replicate (n - 1) '0' ++ ['1'] else List.replicate n '0'

end Gosstrak
