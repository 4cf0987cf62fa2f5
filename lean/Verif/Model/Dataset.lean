import Verif.Model.Generate

/-!
`test/gendataset.go`, the tool that writes the data sets of the simulations: what it writes, as a
function of the random texts it draws. Here each parameter set is handled on its own, and its file does not
exist yet; the goroutines, channels and files are in Model/DatasetRun.
-/
namespace Gosstrak

/-- test/gendataset.go:20-33 `UIIParam`. `Type`, `ExtDigits` and `IARMaxDigits` are left out: the first
    only appears in file names, the others determine the lengths of the drawn texts. -/
structure UIIParam where
  schemeName : Str
  companyPrefix : Str := []
  itemReference : Str := []
  assetType : Str := []
  ownerCode : Str := []
  dataIdentifier : Str := []
  issuingAgencyCode : Str := []
  companyIdentification : Str := []
  noFilter : Bool

/-- test/gendataset.go:98-103 and the like: `scheme.PrintID(scheme.MakeEPC(…))` -/
def Binutil.epcLine (x : Binutil) (t : BinText) (pf : Bool) (cs cp ir ext ser iar at' : Str) : Str :=
  let (bs, opt) := x.makeEPC t pf cs "3".toList cp ir ext ser iar at'
  printID bs opt

/-- test/gendataset.go:197-203 and the like: `scheme.PrintID(scheme.MakeISO(…))` -/
def Binutil.isoLine (x : Binutil) (t : BinText) (pf : Bool) (std oc ei csn di iac cin sn : Str) :
    Option Str :=
  (x.makeISO t pf std oc ei csn di iac cin sn).map fun (bs, opt) => printID bs opt

/-- one step after the other, stopping at a panic (test/gendataset.go:77-240) -/
def allOf : List (Option Str) → Option (List Str)
  | [] => some []
  | none :: _ => none
  | some s :: l => (allOf l).map (s :: ·)

/-- the filter lines and then the tag lines (test/gendataset.go:77-240) -/
def both (f tags : Option (List Str)) : Option (List Str × List Str) :=
  match f, tags with
  | some f, some tags => some (f, tags)
  | _, _ => none

/-- test/gendataset.go:77-240 `generateUIISet` for one parameter set: the lines sent to the filter
    writer and the lines of the file, `n` being `NumSerial`. `r k` is the text drawn in round `k` of the
    loop (131, 156, 233); `none` is a panic of `MakeISO`. -/
def Binutil.uiiSet (x : Binutil) (t : BinText) (n : Nat) (r : Nat → Str) (p : UIIParam) :
    Option (List Str × List Str) :=
  let cs := p.schemeName
  let cp := p.companyPrefix
  if cs = "sgtin-96".toList then
    some (if p.noFilter then [] else
      [x.epcLine t true cs cp [] [] [] [] [], x.epcLine t true cs cp p.itemReference [] [] [] []],
      (List.range n).map fun k => x.epcLine t false cs cp p.itemReference [] (decStr k) [] [])
  else if cs = "sscc-96".toList then
    some (if p.noFilter then [] else [x.epcLine t true cs cp [] [] [] [] []],
      (List.range n).map fun k => x.epcLine t false cs cp [] (r k) [] [] [])
  else if cs = "giai-96".toList then
    some (if p.noFilter then [] else [x.epcLine t true cs cp [] [] [] [] []],
      (List.range n).map fun k => x.epcLine t false cs cp [] [] [] (r k) [])
  else if cs = "grai-96".toList then
    some (if p.noFilter then [] else
      [x.epcLine t true cs cp [] [] [] [] [], x.epcLine t true cs cp [] [] [] [] p.assetType],
      (List.range n).map fun k => x.epcLine t false cs cp [] [] (decStr k) [] p.assetType)
  else if cs = "17363".toList then
    both (if p.noFilter then some [] else
        allOf [x.isoLine t true cs p.ownerCode [] [] [] [] [] []])
      (allOf ((List.range n).map fun k => x.isoLine t false cs p.ownerCode [] (decStr k) [] [] [] []))
  else if cs = "17365".toList then
    let di := p.dataIdentifier
    let iac := p.issuingAgencyCode
    let cin := p.companyIdentification
    both (if p.noFilter then some [] else
        allOf [x.isoLine t true cs [] [] [] di iac [] [], x.isoLine t true cs [] [] [] di iac cin []])
      (allOf ((List.range n).map fun k => x.isoLine t false cs [] [] [] di iac cin (r k)))
  else some ([], [])

/-- test/gendataset.go:47-64 `filterWriter`: the file after these lines were received -/
def filterFile (lines : List Str) : Str := lines.flatMap fun s => if s.length ≠ 0 then s ++ ['\n'] else []

/-- test/gendataset.go:66-75 `generateNonZeroDigits`, where the calls of the random generator give the
    texts in the list; `none` when it needs more of them -/
def nonZeroDigits : List Str → Option Str
  | [] => none
  | s :: l => if hasPrefix s ['0'] then nonZeroDigits l else some s

/-- what is drawn in one round of the loops at test/gendataset.go:267-327, 328-388 -/
structure Draw where
  cp : Str
  itemReferences : List Str
  ssccPrefixes : List Str
  giaiPrefixes : List Str
  graiPrefix : Str
  assetTypes : List Str
  ownerCode : Str
  companyIdentification : Str

/-- test/gendataset.go:267-327 (`noFilter` false) and 328-388 (true): the parameter sets of one round -/
def Draw.params (d : Draw) (noFilter : Bool) : List UIIParam :=
  (d.itemReferences.map fun ir => { schemeName := "sgtin-96".toList, companyPrefix := d.cp, itemReference := ir, noFilter }) ++
  (d.ssccPrefixes.map fun cp => { schemeName := "sscc-96".toList, companyPrefix := cp, noFilter }) ++
  (d.giaiPrefixes.map fun cp => { schemeName := "giai-96".toList, companyPrefix := cp, noFilter }) ++
  (d.assetTypes.map fun a => { schemeName := "grai-96".toList, companyPrefix := d.graiPrefix, assetType := a, noFilter }) ++
  [{ schemeName := "17363".toList, ownerCode := d.ownerCode, noFilter },
   { schemeName := "17365".toList, dataIdentifier := "25S".toList, issuingAgencyCode := "U".toList,
     companyIdentification := d.companyIdentification, noFilter }]

end Gosstrak
