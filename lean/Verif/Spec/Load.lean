import Verif.Spec.Subs

/-!
What a file of subscriptions says, independent of the order in which it is read.
-/
namespace Gosstrak

/-- The patterns that the records hold for a report URI, in file order. -/
def recordPatterns (records : List (List Str)) (uri : Str) : List Str :=
  records.flatMap fun r =>
    if (r.head?).map toLower = some uri then
      r.tail.filter fun p => decide ("urn:epc:pat:".toList <+: toLower p)
    else []

/-- The pattern would have the usual prefix if written in lower case, but has not as it is. -/
def WrongCase (pat : Str) : Prop :=
  "urn:epc:pat:".toList <+: toLower pat ∧ ¬ "urn:epc:pat:".toList <+: pat

instance (pat : Str) : Decidable (WrongCase pat) := by unfold WrongCase; infer_instance

end Gosstrak
