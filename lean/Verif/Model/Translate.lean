import Verif.Model.ListEngine

/-!
`tdt/core.go`: from the bytes of a tag to its pure identity.
-/
namespace Gosstrak

/-- `big.Int.SetBytes`: big-endian unsigned number -/
def setBytes (l : List Byte) : Nat := l.foldl (fun n b => 256 * n + b.toNat) 0

/-- digits of `n`, most significant first; `fuel` bounds their number -/
def decDigits : Nat → Nat → Str
  | 0, _ => []
  | fuel + 1, n =>
    if n < 10 then [Char.ofNat (48 + n)] else decDigits fuel (n / 10) ++ [Char.ofNat (48 + n % 10)]

/-- `big.Int.String` of a number that is not negative, `strconv.Itoa`, `fmt.Sprintf("%v", n)` -/
def decStr (n : Nat) : Str := decDigits (n + 1) n

/-- `strings.Repeat("0", want-len(s)) + s` -/
def padZero (want : Nat) (s : Str) : Option Str := (repeatZero want s.length).map (· ++ s)

/-- a row of a partition table (tdt/epc.go:38-79); `digits` is `IRDigits`, `EDigits`, `ATDigits` or
    `IARDigits`, `bits` the corresponding number of bits -/
structure Row where
  cpLength : Nat
  pValue : Nat
  cpBits : Nat
  bits : Nat
  digits : Nat
deriving DecidableEq, Repr

/-- tdt/epc.go:60-68 `SGTIN96PartitionTable`, the same in scheme/epc.go -/
def sgtinTable : List Row :=
  [⟨12, 0, 40, 4, 1⟩, ⟨11, 1, 37, 7, 2⟩, ⟨10, 2, 34, 10, 3⟩, ⟨9, 3, 30, 14, 4⟩, ⟨8, 4, 27, 17, 5⟩,
   ⟨7, 5, 24, 20, 6⟩, ⟨6, 6, 20, 24, 7⟩]

/-- tdt/epc.go:71-79 `SSCC96PartitionTable` -/
def ssccTable : List Row :=
  [⟨12, 0, 40, 18, 5⟩, ⟨11, 1, 37, 21, 6⟩, ⟨10, 2, 34, 24, 7⟩, ⟨9, 3, 30, 28, 8⟩, ⟨8, 4, 27, 31, 9⟩,
   ⟨7, 5, 24, 34, 10⟩, ⟨6, 6, 20, 38, 11⟩]

/-- tdt/epc.go:49-57 `GRAI96PartitionTable` -/
def graiTable : List Row :=
  [⟨12, 0, 40, 4, 0⟩, ⟨11, 1, 37, 7, 1⟩, ⟨10, 2, 34, 10, 2⟩, ⟨9, 3, 30, 14, 3⟩, ⟨8, 4, 27, 17, 4⟩,
   ⟨7, 5, 24, 20, 5⟩, ⟨6, 6, 20, 24, 6⟩]

/-- tdt/epc.go:38-46 `GIAI96PartitionTable` -/
def giaiTable : List Row :=
  [⟨12, 0, 40, 42, 13⟩, ⟨11, 1, 37, 45, 14⟩, ⟨10, 2, 34, 48, 15⟩, ⟨9, 3, 30, 52, 16⟩,
   ⟨8, 4, 27, 55, 17⟩, ⟨7, 5, 24, 58, 18⟩, ⟨6, 6, 20, 62, 19⟩]

/-- tdt/core.go:97-106, 273-282, 444-453, 622-631: partition value and its row. The `range` over the
    table finds the same row in any order, as the values `PValue` are distinct. -/
def partitionRow (table : List Row) (b : Nat → Byte) : Option Row :=
  table.find? fun r => decide (r.pValue = ((b 1 &&& 28#8) >>> 2).toNat)

/-- the array `cp` of tdt/core.go:110-261 (equal in all four schemes), by `ptm[CPBits]` -/
def cpBytes (cpBits : Nat) (b : Nat → Byte) : List Byte :=
  match cpBits with
  | 40 => [(b 1 &&& 3#8) <<< 6 ||| b 2 >>> 2, (b 2 &&& 3#8) <<< 6 ||| b 3 >>> 2,
      (b 3 &&& 3#8) <<< 6 ||| b 4 >>> 2, (b 4 &&& 3#8) <<< 6 ||| b 5 >>> 2,
      (b 5 &&& 3#8) <<< 6 ||| b 6 >>> 2]
  | 37 => [(b 1 &&& 3#8) <<< 3 ||| b 2 >>> 5, (b 2 &&& 31#8) <<< 3 ||| b 3 >>> 5,
      (b 3 &&& 31#8) <<< 3 ||| b 4 >>> 5, (b 4 &&& 31#8) <<< 3 ||| b 5 >>> 5,
      (b 5 &&& 31#8) <<< 3 ||| b 6 >>> 5]
  | 34 => [b 1 &&& 3#8, b 2, b 3, b 4, b 5]
  | 30 => [(b 1 &&& 3#8) <<< 4 ||| b 2 >>> 4, (b 2 &&& 15#8) <<< 4 ||| b 3 >>> 4,
      (b 3 &&& 15#8) <<< 4 ||| b 4 >>> 4, (b 4 &&& 15#8) <<< 4 ||| b 5 >>> 4]
  | 27 => [(b 1 &&& 3#8) <<< 1 ||| b 2 >>> 7, (b 2 &&& 127#8) <<< 1 ||| b 3 >>> 7,
      (b 3 &&& 127#8) <<< 1 ||| b 4 >>> 7, (b 4 &&& 127#8) <<< 1 ||| b 5 >>> 7]
  | 24 => [(b 1 &&& 3#8) <<< 6 ||| b 2 >>> 2, (b 2 &&& 3#8) <<< 6 ||| b 3 >>> 2,
      (b 3 &&& 3#8) <<< 6 ||| b 4 >>> 2]
  | 20 => [(b 1 &&& 3#8) <<< 2 ||| b 2 >>> 6, (b 2 &&& 63#8) <<< 2 ||| b 3 >>> 6,
      (b 3 &&& 63#8) <<< 2 ||| b 4 >>> 6]
  | _ => []

/-- the arrays `ir` of SGTIN (tdt/core.go:125-252) and `at` of GRAI (:471-601, where the case 40 is
    commented out) -/
def refBytes (cpBits : Nat) (b : Nat → Byte) : List Byte :=
  match cpBits with
  | 40 => [(b 6 &&& 3#8) <<< 2 ||| b 7 >>> 6]
  | 37 => [(b 6 &&& 31#8) <<< 2 ||| b 7 >>> 6]
  | 34 => [b 6 >>> 6, (b 6 &&& 63#8) <<< 2 ||| b 7 >>> 6]
  | 30 => [(b 5 &&& 15#8) <<< 2 ||| b 6 >>> 6, (b 6 &&& 63#8) <<< 2 ||| b 7 >>> 6]
  | 27 => [(b 5 &&& 127#8) >>> 6, ((b 5 &&& 127#8) &&& 63#8) <<< 2 ||| b 6 >>> 6,
      (b 6 &&& 63#8) <<< 2 ||| b 7 >>> 6]
  | 24 => [(b 4 &&& 3#8) <<< 2 ||| b 5 >>> 6, (b 5 &&& 63#8) <<< 2 ||| b 6 >>> 6,
      (b 6 &&& 63#8) <<< 2 ||| b 7 >>> 6]
  | 20 => [(b 4 &&& 63#8) <<< 2 ||| b 5 >>> 6, (b 5 &&& 63#8) <<< 2 ||| b 6 >>> 6,
      (b 6 &&& 63#8) <<< 2 ||| b 7 >>> 6]
  | _ => []

/-- the array `ext` of SSCC (tdt/core.go:301-431) -/
def extBytes (cpBits : Nat) (b : Nat → Byte) : List Byte :=
  match cpBits with
  | 40 => [b 6 &&& 3#8, b 7, b 8]
  | 37 => [b 6 &&& 31#8, b 7, b 8]
  | 34 => [b 6, b 7, b 8]
  | 30 => [b 5 &&& 15#8, b 6, b 7, b 8]
  | 27 => [b 5 &&& 127#8, b 6, b 7, b 8]
  | 24 => [b 4 &&& 3#8, b 5, b 6, b 7, b 8]
  | 20 => [b 4 &&& 63#8, b 5, b 6, b 7, b 8]
  | _ => []

/-- the array `iar` of GIAI (tdt/core.go:650-796) -/
def iarBytes (cpBits : Nat) (b : Nat → Byte) : List Byte :=
  match cpBits with
  | 40 => [b 6 &&& 3#8, b 7, b 8, b 9, b 10, b 11]
  | 37 => [b 6 &&& 31#8, b 7, b 8, b 9, b 10, b 11]
  | 34 => [b 6, b 7, b 8, b 9, b 10, b 11]
  | 30 => [b 5 &&& 15#8, b 6, b 7, b 8, b 9, b 10, b 11]
  | 27 => [b 5 &&& 127#8, b 6, b 7, b 8, b 9, b 10, b 11]
  | 24 => [b 4 &&& 3#8, b 5, b 6, b 7, b 8, b 9, b 10, b 11]
  | 20 => [b 4 &&& 63#8, b 5, b 6, b 7, b 8, b 9, b 10, b 11]
  | _ => []

/-- tdt/core.go:256-263, 604-611: the serial of SGTIN and GRAI -/
def serialBytes (b : Nat → Byte) : List Byte := [b 7 &&& 63#8, b 8, b 9, b 10, b 11]

/-- the bytes of an ID of full length -/
def byteAt (id : List Byte) (i : Nat) : Byte := (id[i]?).getD 0#8

/-- `cp + "."` of tdt/core.go:123 and the other cases -/
def cpText (r : Row) (b : Nat → Byte) : Option Str :=
  (padZero r.cpLength (decStr (setBytes (cpBytes r.cpBits b)))).map (· ++ ".".toList)

/-- tdt/core.go:89-264 SGTIN-96 -/
def buildSGTIN (id : List Byte) : Option (Str × Bool) :=
  if id.length ≠ 12 then some ([], true)
  else
    let b := byteAt id
    let body : Option Str := match partitionRow sgtinTable b with
      | none => some []
      | some r => do
        let cp ← cpText r b
        let ir ← padZero r.digits (decStr (setBytes (refBytes r.cpBits b)))
        some (cp ++ ir ++ ".".toList)
    body.map fun s => ("urn:epc:id:sgtin:".toList ++ s ++ decStr (setBytes (serialBytes b)), false)

/-- tdt/core.go:265-435 SSCC-96 -/
def buildSSCC (id : List Byte) : Option (Str × Bool) :=
  if id.length ≠ 12 then some ([], true)
  else
    let b := byteAt id
    let body : Option Str := match partitionRow ssccTable b with
      | none => some []
      | some r => do
        let cp ← cpText r b
        let ext ← padZero r.digits (decStr (setBytes (extBytes r.cpBits b)))
        some (cp ++ ext)
    body.map fun s => ("urn:epc:id:sscc:".toList ++ s, false)

/-- tdt/core.go:436-613 GRAI-96 -/
def buildGRAI (id : List Byte) : Option (Str × Bool) :=
  if id.length ≠ 12 then some ([], true)
  else
    let b := byteAt id
    let body : Option Str := match partitionRow graiTable b with
      | none => some []
      | some r => do
        let cp ← cpText r b
        if r.cpBits = 40 then some cp
        else
          let at' ← padZero r.digits (decStr (setBytes (refBytes r.cpBits b)))
          some (cp ++ at' ++ ".".toList)
    body.map fun s => ("urn:epc:id:grai:".toList ++ s ++ decStr (setBytes (serialBytes b)), false)

/-- tdt/core.go:614-798 GIAI-96 -/
def buildGIAI (id : List Byte) : Option (Str × Bool) :=
  if id.length ≠ 12 then some ([], true)
  else
    let b := byteAt id
    let body : Option Str := match partitionRow giaiTable b with
      | none => some []
      | some r => do
        let cp ← cpText r b
        some (cp ++ decStr (setBytes (iarBytes r.cpBits b)))
    body.map fun s => ("urn:epc:id:giai:".toList ++ s, false)

/-- tdt/core.go:84-801 `buildEPC`; the empty ID panics at `id[0]`. -/
def buildEPC (id : List Byte) : Option (Str × Bool) :=
  match id with
  | [] => none
  | h :: _ =>
    if h = 48#8 then buildSGTIN id
    else if h = 49#8 then buildSSCC id
    else if h = 51#8 then buildGRAI id
    else if h = 52#8 then buildGIAI id
    else some ([], false)

/-- tdt/core.go:805-829: the URN prefix of an application family identifier -/
def afiURN (afi : Byte) : Option Str :=
  if afi = 161#8 then some "17367:".toList
  else if afi = 162#8 then some "17365:".toList
  else if afi = 163#8 then some "17364:".toList
  else if afi = 164#8 then some "17367h:".toList
  else if afi = 165#8 then some "17366:".toList
  else if afi = 166#8 then some "17366h:".toList
  else if afi = 167#8 then some "17365h:".toList
  else if afi = 168#8 then some "17364h:".toList
  else if afi = 169#8 then some "17363:".toList
  else if afi = 170#8 then some "17363h:".toList
  else none

/-- tdt/core.go:867-900: the body of the loop at `offset`, with `at' y` for `in[y]` -/
def sixBits (at' : Nat → Byte) (offset : Nat) : Byte :=
  let y := offset / 8
  let c := match offset % 8 with
    | 0 => (252#8 &&& at' y) >>> 2
    | 2 => 63#8 &&& at' y
    | 4 => (15#8 &&& at' y) <<< 2 ||| (192#8 &&& at' (y + 1)) >>> 6
    | 6 => (3#8 &&& at' y) <<< 4 ||| (240#8 &&& at' (y + 1)) >>> 4
    | _ => 0#8
  if (32#8 &&& c) ≠ 32#8 then c ||| 64#8 else c

/-- tdt/core.go:864-903 `parse6BitEncodedByteSliceToString`. The offsets are 0, 6, 12, ... while
    offset+6 is at most the number of bits, so all accesses are within the slice. The bytes are
    below 128, so `string(buf)` has the same characters. -/
def parse6Bit (inp : List Byte) : Str :=
  (List.range (inp.length * 8 / 6)).filterMap fun i =>
    let c := sixBits (byteAt inp) (6 * i)
    if c ^^^ 32#8 ≠ 0#8 then some (Char.ofNat c.toNat) else none

/-- tdt/core.go:803-837 `buildUII` -/
def buildUII (id : List Byte) (afi : Byte) : Str × Bool :=
  match afiURN afi with
  | none => ([], true)
  | some s => ("urn:epc:id:iso".toList ++ s ++ parse6Bit id, false)

/-- tdt/core.go:67-82 `Translate`. The third branch is unreachable: `1 & pc[0]` is 0 or 1. -/
def translate : Translator := fun pc id =>
  match pc with
  | [p0, p1] =>
    if 1#8 &&& p0 = 0#8 then buildEPC id
    else if 1#8 &&& p0 = 1#8 then some (buildUII id p1)
    else some ([], false)
  | _ => some ([], true)

end Gosstrak
