import Verif.Model.Subs

/-!
`LoadSubscriptionsFromCSVFile`, from the records on. How `encoding/csv` reads them from the text of the file is in
Model/Csv; opening the file is not modelled.
-/
namespace Gosstrak

/-- filtering/subscriptions.go:168-177: the loop over the fields behind the URI -/
def loadPattern (uri : Str) (sub : Subs) (pat : Str) : Subs :=
  if hasPrefix (toLower pat) "urn:epc:pat:".toList then
    let sub := match mapGet sub uri with
      | none => mapSet sub uri []
      | some _ => sub
    mapSet sub uri ((mapGet sub uri).getD [] ++ [pat])
  else sub

/-- filtering/subscriptions.go:164-177: one record; `none` is the panic of `record[0]` -/
def loadRecord (sub : Subs) (record : List Str) : Option Subs :=
  match record with
  | [] => none
  | uri :: pats =>
    if hasPrefix (toLower uri) "http".toList then some (pats.foldl (loadPattern (toLower uri)) sub)
    else some sub

/-- filtering/subscriptions.go:144-181 `LoadSubscriptionsFromCSVFile`, from the records on -/
def loadRecords (records : List (List Str)) : Option Subs := records.foldlM loadRecord []

end Gosstrak
