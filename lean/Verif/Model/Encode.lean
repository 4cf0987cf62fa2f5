import Verif.Model.Translate

/-!
`tdt/epc.go`, `tdt/iso.go`, `scheme/epc.go`, `scheme/iso.go`, `scheme/generate.go`: from field texts to
filter strings and tags.
-/
namespace Gosstrak

/-- The functions of `github.com/iomz/go-llrp/binutil` whose source is not in /repo. What the theorems
    assume about them is `Binutil.Ok` in Verif/Spec/Encode.lean; everything else about them is
    arbitrary. A function that draws random values has the call site as its first argument, so that
    every call may have another outcome. -/
structure Binutil where
  /-- `ParseDecimalStringToBinRuneSlice` -/
  decToBin : Str → Str
  /-- `GenerateNLengthRandomBinRuneSlice(length, max)` at a call site -/
  randomBits : Nat → Nat → Nat → Str
  /-- `ParseRuneTo6BinRuneSlice`; `ParseRuneSliceTo6BinRuneSlice` is the concatenation -/
  sixBit : Char → Str
  /-- `GenerateNLengthAlphabetString` -/
  randomAlphabet : Nat → Str
  /-- `GenerateNLengthDigitString` -/
  randomDigits : Nat → Str
  /-- `GenerateNLengthHexString` -/
  randomHex : Nat → Str

/-- `binutil.GenerateNLengthZeroPaddingRuneSlice` -/
def zeroPadding (n : Nat) : Str := List.replicate n '0'

/-- the code `if bits > len(s) { s = append(zeros, s...) }` of every field -/
def leftPad (bits : Nat) (s : Str) : Str :=
  if bits > s.length then zeroPadding (bits - s.length) ++ s else s

/-- binary digits of `n`, most significant first; `fuel` bounds their number -/
def binDigits : Nat → Nat → Str
  | 0, _ => []
  | fuel + 1, n =>
    if n < 2 then [Char.ofNat (48 + n)] else binDigits fuel (n / 2) ++ [Char.ofNat (48 + n % 2)]

/-- `fmt.Sprintf("%b", n)` for `n ≥ 0` -/
def binStr (n : Nat) : Str := binDigits (n + 1) n

/-- `fmt.Sprintf("%.<prec>b", n)` for a positive precision -/
def fmtBin (prec : Nat) (n : Int) : Str :=
  (if n < 0 then ['-'] else []) ++ leftPad prec (binStr n.natAbs)

/-- the loop of `strconv.ParseUint(s, base, bits)` with `top = 2^bits - 1`, without the errors: `none`
    for a character that is no digit, `top` as soon as the number is out of range, whatever follows -/
def parseUintLoop (val : Char → Option Nat) (base top : Nat) : Nat → Str → Option Nat
  | n, [] => some n
  | n, c :: s =>
    match val c with
    | none => none
    | some d => if top < base * n + d then some top else parseUintLoop val base top (base * n + d) s

/-- `strconv.ParseUint`: `none` a syntax error, `top` also for a number out of range -/
def parseUint (val : Char → Option Nat) (base top : Nat) (s : Str) : Option Nat :=
  if s.isEmpty then none else parseUintLoop val base top 0 s

/-- value of a decimal digit -/
def decDigit (c : Char) : Option Nat := if '0' ≤ c ∧ c ≤ '9' then some (c.toNat - 48) else none

/-- `strconv.ParseUint(s, 10, 32)` -/
def parseDigits (s : Str) : Option Nat := parseUint decDigit 10 4294967295 s

/-- the call of `ParseUint` in `strconv.ParseInt` and the sign; `none` a syntax error. A number out of
    range is out of range for `parseInt32` too. -/
def parseSigned (s : Str) : Option Int :=
  match s with
  | '-' :: t => (parseDigits t).map fun n : Nat => - Int.ofNat n
  | '+' :: t => (parseDigits t).map fun n : Nat => Int.ofNat n
  | t => (parseDigits t).map fun n : Nat => Int.ofNat n

/-- `n, _ := strconv.ParseInt(s, 10, 32)`: 0 for a syntax error, the nearest representable number for
    one out of range -/
def parseInt32 (s : Str) : Int :=
  match parseSigned s with
  | none => 0
  | some n => max (-2147483648) (min 2147483647 n)

namespace Binutil

/-- tdt/epc.go:122-130 `getFilter`, scheme/epc.go:118-126 `GetFilter` -/
def getFilter (x : Binutil) (fv : Str) : Str :=
  if fv ≠ [] then fmtBin 3 (parseInt32 fv) else x.randomBits 0 3 7

/-- tdt/epc.go:82-93, 108-119, 133-144, 147-159 `getAssetType`, `getExtension`,
    `getIndivisualAssetReference`, `getItemReference`; scheme/epc.go:78-89, 104-115, 130-141, 144-156. A missing row has
    0 bits and 0 digits. -/
def getRef (x : Binutil) (s : Str) (r : Option Row) : Str :=
  let bits := (r.map Row.bits).getD 0
  let digits := (r.map Row.digits).getD 0
  if s ≠ [] then leftPad bits (x.decToBin s) else x.randomBits 1 bits (10 ^ digits)

/-- tdt/epc.go:96-105 `getCompanyPrefix`, scheme/epc.go:92-101 `GetCompanyPrefix`, with the row `pt[len(cp)]` -/
def getCompanyPrefix (x : Binutil) (cp : Str) (r : Option Row) : Str :=
  if cp ≠ [] then leftPad ((r.map Row.cpBits).getD 0) (x.decToBin cp) else []

/-- tdt/epc.go:162-173 `getSerial`, scheme/epc.go:159-170 `GetSerial`, with `serialLength` 38 -/
def getSerial (x : Binutil) (s : Str) : Str :=
  if s ≠ [] then leftPad 38 (x.decToBin s) else x.randomBits 2 38 (2 ^ 38)

end Binutil

/-- `pt[n]` -/
def rowFor (table : List Row) (n : Nat) : Option Row := table.find? fun r => decide (r.cpLength = n)

/-- `fmt.Sprintf("%.3b", pt[len(cp)][PValue])` -/
def partitionBits (r : Option Row) : Str := fmtBin 3 (((r.map Row.pValue).getD 0 : Nat) : Int)

namespace Binutil

/-- tdt/epc.go:176-202, 275-301: `NewPrefixFilterGIAI96` and `NewPrefixFilterSSCC96` differ in the
    header and the table only; `none` is an error. -/
def prefixFilter3 (x : Binutil) (header : Str) (table : List Row) (fields : List Str) : Option Str :=
  match fields with
  | [] => none
  | [f] => some (header ++ x.getFilter f)
  | [f, c] => some (header ++ x.getFilter f ++ partitionBits (rowFor table c.length) ++
      x.getCompanyPrefix c (rowFor table c.length))
  | [f, c, r] => some (header ++ x.getFilter f ++ partitionBits (rowFor table c.length) ++
      x.getCompanyPrefix c (rowFor table c.length) ++ x.getRef r (rowFor table c.length))
  | _ => none

/-- tdt/epc.go:205-237, 240-272: `NewPrefixFilterGRAI96` and `NewPrefixFilterSGTIN96` -/
def prefixFilter4 (x : Binutil) (header : Str) (table : List Row) (fields : List Str) : Option Str :=
  match fields with
  | [] => none
  | [f] => some (header ++ x.getFilter f)
  | [f, c] => some (header ++ x.getFilter f ++ partitionBits (rowFor table c.length) ++
      x.getCompanyPrefix c (rowFor table c.length))
  | [f, c, r] => some (header ++ x.getFilter f ++ partitionBits (rowFor table c.length) ++
      x.getCompanyPrefix c (rowFor table c.length) ++ x.getRef r (rowFor table c.length))
  | [f, c, r, s] => some (header ++ x.getFilter f ++ partitionBits (rowFor table c.length) ++
      x.getCompanyPrefix c (rowFor table c.length) ++ x.getRef r (rowFor table c.length) ++
      x.getSerial s)
  | _ => none

/-- `binutil.ParseRuneSliceTo6BinRuneSlice` -/
def sixBits (x : Binutil) (s : Str) : Str := s.flatMap x.sixBit

end Binutil

/-- `strings.Index(s, string(c))`: -1 if absent -/
def indexOf (c : Char) : Str → Int
  | [] => -1
  | d :: s => if d = c then 0 else let k := indexOf c s; if k = -1 then -1 else k + 1

/-- the literal of tdt/iso.go:25 and scheme/iso.go:22 -/
def cdAlphabet : Str := "0123456789A?BCDEFGHIJK?LMNOPQRSTU?VWXYZ".toList

/-- tdt/iso.go:21-27: the loop and the result of `getISO6346CD`. The floating point numbers are
    integers of at most 1023 * 38 in size, and `int(n/11)` truncates: a quotient that is no integer is
    at least 1/11 away from one, far more than the rounding error. -/
def cdSum (cn : Str) : Int :=
  ((List.range cn.length).map fun i => 2 ^ i * indexOf ((cn[i]?).getD ' ') cdAlphabet).sum

/-- tdt/iso.go:17-28 `getISO6346CD`; `none` is an error -/
def isoCD (cn : Str) : Option Int :=
  if cn.length ≠ 10 then none
  else
    let n := cdSum cn
    some ((n - n.tdiv 11 * 11).tmod 10)

/-- scheme/iso.go:13-25 `GetISO6346CD` -/
def schemeCD (cn : Str) : Option Int :=
  if cn.length ≠ 10 then none else isoCD (toUpper cn)

/-- `fmt.Sprintf("%v", n)` of an `int` -/
def intStr (n : Int) : Str := (if n < 0 then ['-'] else []) ++ decStr n.natAbs

/-- tdt/iso.go:33-46 `pad6BitEncodingRuneSlice`, scheme/iso.go:146-159. The literal is
    `ParseDecimalStringToBinRuneSlice("32")`. -/
def pad6Bit (bs : Str) : Str × Nat :=
  let rem := bs.length % 16
  if rem ≠ 0 then
    (bs ++ (List.range (16 - rem)).map (fun i => ("100000".toList[i % 6]?).getD '0'),
      bs.length + (16 - rem))
  else (bs, bs.length)

namespace Binutil

/-- tdt/iso.go:49-92 `NewPrefixFilterISO17363` -/
def prefixFilterISO17363 (x : Binutil) (fields : List Str) : Option Str :=
  match fields with
  | [] => none
  | [d] => some (x.sixBits d)
  | [d, o] => some (x.sixBits d ++ x.sixBits o)
  | [d, o, e] => some (x.sixBits d ++ x.sixBits o ++ x.sixBits e)
  | d :: o :: e :: c :: rest =>
    let csn := leftPad 6 c
    if 6 < c.length then none
    else match isoCD (d ++ o ++ csn) with
      | none => none
      | some cd =>
        if rest = [] then
          some (x.sixBits d ++ x.sixBits o ++ x.sixBits e ++ x.sixBits (csn ++ intStr cd))
        else none

/-- tdt/iso.go:95-127 `NewPrefixFilterISO17365` -/
def prefixFilterISO17365 (x : Binutil) (fields : List Str) : Option Str :=
  match fields with
  | [] => none
  | [d] => some (x.sixBits d)
  | [d, i] => some (x.sixBits d ++ x.sixBits i)
  | [d, i, c] => some (x.sixBits d ++ x.sixBits i ++ x.sixBits c)
  | [d, i, c, s] => some (x.sixBits d ++ x.sixBits i ++ x.sixBits c ++ x.sixBits s)
  | _ => none

/-- tdt/core.go:845-862 `MakePrefixFilterString` -/
def encoder (x : Binutil) : Encoder := fun t fields =>
  if t = "giai-96".toList then x.prefixFilter3 "00110100".toList giaiTable fields
  else if t = "grai-96".toList then x.prefixFilter4 "00110011".toList graiTable fields
  else if t = "sgtin-96".toList then x.prefixFilter4 "00110000".toList sgtinTable fields
  else if t = "sscc-96".toList then x.prefixFilter3 "00110001".toList ssccTable fields
  else if t = "iso17363".toList then x.prefixFilterISO17363 fields
  else if t = "iso17365".toList then x.prefixFilterISO17365 fields
  else none

end Binutil

/-- what the `Make...` functions return without an error: the ID, or a filter string and a pattern -/
structure Made where
  id : List Byte
  filter : Str
  pattern : Str
deriving DecidableEq, Repr

/-- the common end of scheme/epc.go:204-231, 267-298, 333-364, 394-425: 88 bits behind a header byte.
    The slice `p` of the parsed bits has eleven bytes, `p[0]` to `p[10]`. -/
def pack96 (header : Byte) (bs : Str) : Option Made :=
  if bs.length ≠ 88 then none
  else (parseBin bs).map fun p => ⟨header :: p, [], []⟩

/-- `binutil.ParseBinRuneSliceToInt` of runes 0 and 1 -/
def binToNat (s : Str) : Nat := s.foldl (fun n c => 2 * n + (c.toNat - 48)) 0

namespace Binutil

/-- scheme/epc.go:173-231 `MakeGIAI96` -/
def makeGIAI96 (x : Binutil) (pf : Bool) (fv cp iar : Str) : Option Made :=
  let filter := x.getFilter fv
  let fv := if fv = [] then decStr (binToNat filter) else fv
  let row := rowFor giaiTable cp.length
  if cp = [] then
    if pf then some ⟨[], "00110100".toList ++ filter, "urn:epc:pat:giai-96:".toList ++ fv⟩ else none
  else if iar = [] ∧ pf then
    some ⟨[], "00110100".toList ++ filter ++ partitionBits row ++ x.getCompanyPrefix cp row,
      "urn:epc:pat:giai-96:".toList ++ fv ++ ".".toList ++ cp⟩
  else if pf then
    some ⟨[], "00110100".toList ++ filter ++ partitionBits row ++ x.getCompanyPrefix cp row ++
      x.getRef iar row, "urn:epc:pat:giai-96:".toList ++ fv ++ ".".toList ++ cp ++ ".".toList ++ iar⟩
  else pack96 52#8 (filter ++ partitionBits row ++ x.getCompanyPrefix cp row ++ x.getRef iar row)

/-- scheme/epc.go:234-298, 301-364: `MakeGRAI96` and `MakeSGTIN96` differ in header, name and table. -/
def make4 (x : Binutil) (header : Byte) (hs name : Str) (table : List Row) (pf : Bool)
    (fv cp ref ser : Str) : Option Made :=
  let filter := x.getFilter fv
  let row := rowFor table cp.length
  if cp = [] then
    if pf then some ⟨[], hs ++ filter, "urn:epc:pat:".toList ++ name ++ ":".toList ++ fv⟩ else none
  else if ref = [] ∧ pf then
    some ⟨[], hs ++ filter ++ partitionBits row ++ x.getCompanyPrefix cp row,
      "urn:epc:pat:".toList ++ name ++ ":".toList ++ fv ++ ".".toList ++ cp⟩
  else if ser = [] ∧ pf then
    some ⟨[], hs ++ filter ++ partitionBits row ++ x.getCompanyPrefix cp row ++ x.getRef ref row,
      "urn:epc:pat:".toList ++ name ++ ":".toList ++ fv ++ ".".toList ++ cp ++ ".".toList ++ ref⟩
  else if pf then
    some ⟨[], hs ++ filter ++ partitionBits row ++ x.getCompanyPrefix cp row ++ x.getRef ref row ++
        x.getSerial ser,
      "urn:epc:pat:".toList ++ name ++ ":".toList ++ fv ++ ".".toList ++ cp ++ ".".toList ++ ref ++
        ".".toList ++ ser⟩
  else pack96 header (filter ++ partitionBits row ++ x.getCompanyPrefix cp row ++ x.getRef ref row ++
    x.getSerial ser)

/-- scheme/epc.go:234-298 `MakeGRAI96` -/
def makeGRAI96 (x : Binutil) := x.make4 51#8 "00110011".toList "grai-96".toList graiTable

/-- scheme/epc.go:301-364 `MakeSGTIN96` -/
def makeSGTIN96 (x : Binutil) := x.make4 48#8 "00110000".toList "sgtin-96".toList sgtinTable

/-- scheme/epc.go:367-425 `MakeSSCC96` -/
def makeSSCC96 (x : Binutil) (pf : Bool) (fv cp ext : Str) : Option Made :=
  let filter := x.getFilter fv
  let row := rowFor ssccTable cp.length
  if cp = [] then
    if pf then some ⟨[], "00110001".toList ++ filter, "urn:epc:pat:sscc-96:".toList ++ fv⟩ else none
  else if ext = [] ∧ pf then
    some ⟨[], "00110001".toList ++ filter ++ partitionBits row ++ x.getCompanyPrefix cp row,
      "urn:epc:pat:sscc-96:".toList ++ fv ++ ".".toList ++ cp⟩
  else if pf then
    some ⟨[], "00110001".toList ++ filter ++ partitionBits row ++ x.getCompanyPrefix cp row ++
      x.getRef ext row, "urn:epc:pat:sscc-96:".toList ++ fv ++ ".".toList ++ cp ++ ".".toList ++ ext⟩
  else pack96 49#8 (filter ++ partitionBits row ++ x.getCompanyPrefix cp row ++ x.getRef ext row ++
    zeroPadding 24)

/-- scheme/iso.go:72-87, 125-140: padding, bytes, number of bits -/
def packISO (bs : Str) : Option (Made × Nat) :=
  (parseBin (pad6Bit bs).1).map fun p => (⟨p, [], []⟩, (pad6Bit bs).2)

/-- scheme/iso.go:28-88 `MakeISO17363` -/
def makeISO17363 (x : Binutil) (pf : Bool) (oc ei csn : Str) : Option (Made × Nat) :=
  let di := "7B".toList
  let pat := "urn:epc:pat:iso17363:".toList
  if oc = [] ∧ pf then some (⟨[], x.sixBits di, pat ++ di⟩, 0)
  else
    let oc := if oc = [] then x.randomAlphabet 3 else oc
    if ei = [] ∧ pf then some (⟨[], x.sixBits di ++ x.sixBits oc, pat ++ di ++ ".".toList ++ oc⟩, 0)
    else
      let ei := if ei = [] then "U".toList else ei
      if csn = [] ∧ pf then
        some (⟨[], x.sixBits di ++ x.sixBits oc ++ x.sixBits ei,
          pat ++ di ++ ".".toList ++ oc ++ ".".toList ++ ei⟩, 0)
      else if 6 < csn.length then none
      else
        let csn := if csn = [] then x.randomDigits 6 else leftPad 6 csn
        match schemeCD (oc ++ ei ++ csn) with
        | none => none
        | some cd =>
          let bs := x.sixBits di ++ x.sixBits oc ++ x.sixBits ei ++ x.sixBits (csn ++ intStr cd)
          if pf then
            some (⟨[], bs, pat ++ di ++ ".".toList ++ oc ++ ".".toList ++ ei ++ ".".toList ++ csn⟩, 0)
          else packISO bs

/-- scheme/iso.go:91-141 `MakeISO17365` -/
def makeISO17365 (x : Binutil) (pf : Bool) (di iac cin sn : Str) : Option (Made × Nat) :=
  let pat := "urn:epc:pat:iso17365:".toList
  if iac = [] then
    if pf then some (⟨[], x.sixBits di, pat ++ di⟩, 0) else none
  else if cin = [] then
    if pf then some (⟨[], x.sixBits di ++ x.sixBits iac, pat ++ di ++ ".".toList ++ iac⟩, 0) else none
  else if sn = [] ∧ pf then
    some (⟨[], x.sixBits di ++ x.sixBits iac ++ x.sixBits cin,
      pat ++ di ++ ".".toList ++ iac ++ ".".toList ++ cin⟩, 0)
  else
    let sn := if sn = [] then x.randomHex 18 else sn
    let bs := x.sixBits di ++ x.sixBits iac ++ x.sixBits cin ++ x.sixBits sn
    if pf then
      some (⟨[], bs, pat ++ di ++ ".".toList ++ iac ++ ".".toList ++ cin ++ ".".toList ++ sn⟩, 0)
    else packISO bs

end Binutil

/-- value of a hexadecimal digit -/
def hexVal (c : Char) : Option Nat :=
  if '0' ≤ c ∧ c ≤ '9' then some (c.toNat - 48)
  else if 'a' ≤ c ∧ c ≤ 'f' then some (c.toNat - 87)
  else if 'A' ≤ c ∧ c ≤ 'F' then some (c.toNat - 55)
  else none

/-- `c, _ := strconv.ParseUint(afi, 16, 8)`: 0 for a syntax error, 255 when out of range -/
def parseHex8 (s : Str) : Nat := (parseUint hexVal 16 255 s).getD 0

/-- scheme/generate.go:98-109 `MakeISOPC` for `length ≥ 0`; the error of the parse is a panic -/
def makeISOPC (length : Nat) (afi : Str) : Option (List Byte) :=
  match parseBin (fmtBin 5 ((length / 16 : Nat) : Int) ++ "001".toList) with
  | some (p :: _) => some [p, BitVec.ofNat 8 (parseHex8 afi)]
  | _ => none

end Gosstrak
