import Verif.Model.Dataset
import Verif.Spec.Generate

/-! Specification vocabulary for the data sets. -/
namespace Gosstrak

/-- A line of the filter file: the pattern with these fields and the filter string `s` to which the
    translation layer encodes it. -/
def FilterLine (x : Binutil) (ty : Str) (fields : List Str) (l s : Str) : Prop :=
  x.encoder ty fields = some s ∧
    l = "urn:epc:pat:".toList ++ ty ++ ":".toList ++ ['.'].intercalate fields ++ ",".toList ++ s

/-- A line of a tag file: PC and bits of a tag with this ID and identity. -/
def TagLine (l : Str) (id : List Byte) (ident : Str) : Prop :=
  ∃ pc bs p0 p1, l = pc ++ ",".toList ++ bs ∧ ReadsAs bs pc p0 p1 id ∧
    translate [p0, p1] id = some (ident, false)

/-- the filter string selects the ID -/
def Matched (s : Str) (id : List Byte) : Prop := (newFilter s 0).matchID id = some true

/-- The texts drawn in one round have the lengths that the tool asks for. -/
structure Draw.Ok (d : Draw) : Prop where
  cp : IsCompanyPrefix d.cp
  items : d.itemReferences.length = 10 ∧
    ∀ ir ∈ d.itemReferences, IsDigits ir ∧ ir.length = 13 - d.cp.length
  ssccs : d.ssccPrefixes.length = 2 ∧ ∀ cp ∈ d.ssccPrefixes, IsCompanyPrefix cp
  giais : d.giaiPrefixes.length = 2 ∧ ∀ cp ∈ d.giaiPrefixes, IsCompanyPrefix cp
  grai : IsCompanyPrefix d.graiPrefix ∧ d.graiPrefix.length ≤ 11
  assets : d.assetTypes.length = 2 ∧
    ∀ a ∈ d.assetTypes, IsDigits a ∧ a.length = 12 - d.graiPrefix.length
  owner : IsCode d.ownerCode ∧ d.ownerCode.length = 3
  company : IsCode d.companyIdentification ∧ 3 ≤ d.companyIdentification.length ∧
    d.companyIdentification.length ≤ 7

end Gosstrak
