import Verif.Model.Encode

/-!
`scheme/generate.go`: tags and filters as texts, and `cmd/gobtags`, which reads such texts.
-/
namespace Gosstrak

/-- Further functions of `github.com/iomz/go-llrp/binutil` whose source is not in /repo, with the
    error result left out, as every caller here drops it. What the theorems assume about them is
    `BinText.Ok` in Verif/Spec/Generate.lean. -/
structure BinText where
  /-- `ParseHexStringToBinString` -/
  hexToBin : Str → Str
  /-- `ParseBinStringToDecArrayString` -/
  binToDec : Str → Str
  /-- `ParseHexStringToDecArrayString` -/
  hexToDec : Str → Str

/-- a digit of `hex.EncodeToString` -/
def hexDigit (n : Nat) : Char := Char.ofNat (if n < 10 then 48 + n else 87 + n)

/-- `hex.EncodeToString` -/
def hexEncode (l : List Byte) : Str := l.flatMap fun b => [hexDigit (b.toNat / 16), hexDigit (b.toNat % 16)]

/-- scheme/generate.go:15-22 `CheckIfStringInSlice` -/
def checkIfStringInSlice (a : Str) : List Str → Bool
  | [] => false
  | b :: l => if b = a then true else checkIfStringInSlice a l

/-- scheme/generate.go:26-39: the switch of `MakeEPC`; the zero values remain in case of an error or an
    unknown scheme. -/
def Binutil.makeAny (x : Binutil) (pf : Bool) (cs fv cp ir ext ser iar at' : Str) : Made :=
  let made :=
    if toUpper cs = "GIAI-96".toList then x.makeGIAI96 pf fv cp iar
    else if toUpper cs = "GRAI-96".toList then x.makeGRAI96 pf fv cp at' ser
    else if toUpper cs = "SGTIN-96".toList then x.makeSGTIN96 pf fv cp ir ser
    else if toUpper cs = "SSCC-96".toList then x.makeSSCC96 pf fv cp ext
    else none
  made.getD ⟨[], [], []⟩

/-- scheme/generate.go:25-59 `MakeEPC` -/
def Binutil.makeEPC (x : Binutil) (t : BinText) (pf : Bool) (cs fv cp ir ext ser iar at' : Str) :
    Str × Str :=
  let made := x.makeAny pf cs fv cp ir ext ser iar at'
  if pf then (made.filter, made.pattern)
  else (t.hexToBin (hexEncode made.id), hexEncode [48#8, 0#8])

/-- scheme/generate.go:71-73, 75-77, 81-87: what `MakeISO` does with the result of the standard's
    function; `none` is the panic of `MakeISOPC`. -/
def isoTexts (t : BinText) (pf : Bool) (made : Option (Made × Nat)) (afi : Str) : Option (Str × Str) :=
  let m := made.getD (⟨[], [], []⟩, 0)
  match makeISOPC m.2 afi with
  | none => none
  | some pc => some (if pf then (m.1.filter, m.1.pattern) else (t.hexToBin (hexEncode m.1.id), hexEncode pc))

/-- scheme/generate.go:62-95 `MakeISO` -/
def Binutil.makeISO (x : Binutil) (t : BinText) (pf : Bool) (std oc ei csn di iac cin sn : Str) :
    Option (Str × Str) :=
  if std = "17363".toList then isoTexts t pf (x.makeISO17363 pf oc ei csn) "A9".toList
  else if std = "17365".toList then isoTexts t pf (x.makeISO17365 pf di iac cin sn) "A2".toList
  else some (if pf then ([], []) else (t.hexToBin (hexEncode []), hexEncode []))

/-- scheme/generate.go:112-119 `Sixenc2bin`, scheme/sixenc2bin/main.go:10-17: the loop from `i` on with
    the bits `bs` so far -/
def Binutil.sixenc2bin (x : Binutil) (bs : Str) : Str → Str
  | [] => bs
  | c :: s => x.sixenc2bin (bs ++ x.sixBit c) s

/-- scheme/generate.go:122-129 `PrintGoBytes` -/
def BinText.printGoBytes (t : BinText) (bs opt : Str) : Str :=
  if bs.length = 0 then []
  else "[]byte{".toList ++ t.hexToDec opt ++ "},[]byte{".toList ++ t.binToDec bs ++ "}".toList

/-- scheme/generate.go:132-137 `PrintID` -/
def printID (bs opt : Str) : Str := if bs.length = 0 then [] else opt ++ [','] ++ bs

/-- cmd/gobtags/main.go:25-31 `makeByteID`. The second component says whether an error is returned: in
    the case of an error of the parse it is `nil`. -/
def makeByteID (s : Str) : List Byte × Bool :=
  match parseBin s with
  | none => ([], false)
  | some id => (id, false)

/-- one more digit of a hexadecimal number -/
def hexStep (a : Option Nat) (c : Char) : Option Nat :=
  match a, hexVal c with
  | some n, some d => some (16 * n + d)
  | _, _ => none

/-- `strconv.ParseUint(s, 16, 16)`, either error is `none` -/
def parseHex16 (s : Str) : Option Nat :=
  if s.isEmpty then none
  else match s.foldl hexStep (some 0) with
    | none => none
    | some n => if n < 65536 then some n else none

/-- cmd/gobtags/main.go:33-39 `makeUint16PC` with the error as second component -/
def makeUint16PC (s : Str) : Nat × Bool :=
  match parseHex16 s with
  | none => (0, true)
  | some n => (n, false)

end Gosstrak
