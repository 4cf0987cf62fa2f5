import Verif.Spec.Gob

/-!
Streams that have been cut off or damaged, and what can be read off them.
-/
namespace Gosstrak

/-- the filter in a value -/
def Tok.asFilter : Tok → Option FilterObject
  | .filter f => some f
  | _ => none

/-- URIs, each followed by some value -/
def listEntries (es : List (Str × Tok)) : List Tok := es.flatMap fun e => [.str e.1, e.2]

/-- texts with their lists of texts, the lengths of the lists in between; a negative length is as good as 0 -/
inductive SubsEntries : List (Str × List Str) → List Tok → Prop
  | nil : SubsEntries [] []
  | cons {es : List (Str × List Str)} {d : List Tok} (k : Str) (m : Int) (vs : List Str) (hm : m.toNat = vs.length)
      (h : SubsEntries es d) : SubsEntries ((k, vs) :: es) (.str k :: .int m :: (vs.map .str ++ d))

/-- A beginning of the stream, but not all of it. -/
def CutOff (d full : List Tok) : Prop := ∃ more, more ≠ [] ∧ d ++ more = full

/-- The stream of a partial subscription, cut off there or within one of the nested ones. -/
inductive PSubCut : PSub → List Tok → Prop
  | here {p : PSub} {d : List Tok} (h : CutOff d p.marshal) : PSubCut p d
  | inside {o : Nat} {u k : Str} {before after : List (Str × PSub)} {p : PSub} {d : List Tok} (h : PSubCut p d) :
      PSubCut (.mk o u (before ++ (k, p) :: after))
        [.int o, .str u, .map (marshalBSub before ++ (k, d) :: marshalBSub after)]

end Gosstrak
