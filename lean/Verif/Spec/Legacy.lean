import Verif.Spec.Subs
import Verif.Model.ListEngine

/-! Specification vocabulary for the legacy engine and for sharing. -/
namespace Gosstrak

/-- The text a pattern `a:b:c:<type>:<body>` stands for: for the EPC types the body without its
    first field (the filter value), for the ISO types the body without dots, else the body. -/
def TextForm (pat s : Str) : Prop :=
  ∃ a b c t body, Pieces ':' pat [a, b, c, t, body] ∧
    ((∃ name, (t = name ++ "-96".toList ∧
          name ∈ ["giai".toList, "grai".toList, "sgtin".toList, "sscc".toList]) ∧
        ∃ v rest, Pieces '.' body (v :: rest) ∧ s = name ++ ':' :: ['.'].intercalate rest) ∨
      (t ∈ ["iso17363".toList, "iso17365".toList] ∧
        ∃ parts, Pieces '.' body parts ∧ s = t ++ ':' :: parts.flatten) ∨
      (t ∉ ["giai-96".toList, "grai-96".toList, "sgtin-96".toList, "sscc-96".toList,
          "iso17363".toList, "iso17365".toList] ∧ s = body))

/-- the pattern's text starts the identity (without its `urn:epc:id:`) -/
def TextMatches (identity pat : Str) : Prop :=
  ∃ s body, TextForm pat s ∧ Stripped "urn:epc:id:".toList identity body ∧ s <+: body

/-- the map a call is given -/
def SubsOp.sub : SubsOp → Subs
  | .add s => s
  | .delete s => s

/-- What adding the patterns `new` should leave: the old ones in order, then the missing ones. -/
def wishAdd (old new : List Str) : List Str := old ++ new.filter fun p => decide (p ∉ old)

/-- What deleting the patterns `ds` should leave. -/
def wishDelete (old ds : List Str) : List Str := old.filter fun p => decide (p ∉ ds)

/-- What the patterns of every URI should be after a history of calls. -/
def WishAfter (c : Str → List Str) : List SubsOp → Str → List Str
  | [] => c
  | .add s :: ops => WishAfter (fun q => wishAdd (c q) ((mapGet s q).getD [])) ops
  | .delete s :: ops => WishAfter (fun q => wishDelete (c q) ((mapGet s q).getD [])) ops

/-- The patterns to delete include at most one of the present ones `old`. -/
def AtMostOne (old ds : List Str) : Prop := ∀ x ∈ ds, ∀ y ∈ ds, x ∈ old → y ∈ old → x = y

/-- Every deletion in the history takes at most one pattern from each URI (and no pattern is stored
    twice). -/
def DeletesOneEach (c : Str → List Str) : List SubsOp → Prop
  | [] => True
  | .add s :: ops => DeletesOneEach (fun q => wishAdd (c q) ((mapGet s q).getD [])) ops
  | .delete s :: ops =>
    (∀ q, (c q).Nodup ∧ AtMostOne (c q) ((mapGet s q).getD [])) ∧
      DeletesOneEach (fun q => wishDelete (c q) ((mapGet s q).getD [])) ops

/-- an element write through one of two maps: `m[k][i] = v` -/
structure ElemWrite where
  toClone : Bool
  key : Str
  index : Nat
  value : Str

/-- the content of a map of lists after `m[k][i] = v`; nothing happens if there is no such element -/
def ElemWrite.plain (content : Str → Option (List Str)) (w : ElemWrite) : Str → Option (List Str) :=
  fun q => if q = w.key then (content q).map (·.set w.index w.value) else content q

end Gosstrak
