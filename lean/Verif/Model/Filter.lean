import Verif.Model.Go

namespace Gosstrak

/-- filtering/filter_object.go:22-31 `FilterObject` -/
structure FilterObject where
  str : Str
  size : Nat
  offset : Nat
  byteFilter : List Byte
  byteMask : List Byte
  byteOffset : Nat
  byteSize : Nat
deriving DecidableEq, Repr

/-- filtering/filter_object.go:87-130 `makeFilter`: byte offset, filter runes, mask runes. -/
def makeFilter (bs : Str) (offset : Nat) : Nat × Str × Str :=
  let leftPaddingLength := offset % 8
  -- 98-103: insert filter body
  let bodyLength := if 8 - leftPaddingLength < bs.length then 8 - leftPaddingLength else bs.length
  let f := List.replicate leftPaddingLength '1' ++ bs.take bodyLength
  let m := List.replicate leftPaddingLength '1' ++ List.replicate bodyLength '0'
  -- 107-112: pad right with 1 if necessary
  let rightPaddingLength := if f.length < 8 then 8 - f.length else 0
  let f := f ++ List.replicate rightPaddingLength '1'
  let m := m ++ List.replicate rightPaddingLength '1'
  -- 115-120: apply wildcard x bits in the filter to mask
  let m := List.zipWith (fun c d => if c = 'x' then '1' else d) f m
  let f := f.map (fun c => if c = 'x' then '1' else c)
  -- 122-127: if there is remainder, continue making the filter
  if _h : bs.length + leftPaddingLength > 8 then
    let r := makeFilter (bs.drop bodyLength) ((offset / 8 + 1) * 8)
    (offset / 8, f ++ r.2.1, m ++ r.2.2)
  else (offset / 8, f, m)
termination_by bs.length
decreasing_by
  simp only [List.length_drop]
  split <;> omega

/-- one rune of a binary string -/
def bitOfRune (c : Char) : Option Bool :=
  if c = '1' then some true else if c = '0' then some false else none

/-- a byte from eight bits, most significant first -/
def byteOfBits (b7 b6 b5 b4 b3 b2 b1 b0 : Bool) : Byte :=
  BitVec.ofNat 8 (128 * b7.toNat + 64 * b6.toNat + 32 * b5.toNat + 16 * b4.toNat
    + 8 * b3.toNat + 4 * b2.toNat + 2 * b1.toNat + b0.toNat)

/-- body of `binutil.ParseBinRuneSliceToUint8Slice`: groups of eight runes, most significant first;
    `none` is the error return. -/
def parseBinAux : Str → Option (List Byte)
  | [] => some []
  | c7 :: c6 :: c5 :: c4 :: c3 :: c2 :: c1 :: c0 :: rest => do
      let b7 ← bitOfRune c7
      let b6 ← bitOfRune c6
      let b5 ← bitOfRune c5
      let b4 ← bitOfRune c4
      let b3 ← bitOfRune c3
      let b2 ← bitOfRune c2
      let b1 ← bitOfRune c1
      let b0 ← bitOfRune c0
      let r ← parseBinAux rest
      return byteOfBits b7 b6 b5 b4 b3 b2 b1 b0 :: r
  | _ => none

/-- `binutil.ParseBinRuneSliceToUint8Slice` (external, modelled from its uses at
    filter_object.go:135-136, scheme/epc.go and the test vectors): an error (`none`) unless the
    length is a positive multiple of 8 and all runes are 0/1. -/
def parseBin (s : Str) : Option (List Byte) :=
  if s.isEmpty then none else parseBinAux s

/-- filtering/filter_object.go:133-147 `NewFilter`. The parse errors are dropped there
    (`bf, _ :=`), leaving a nil slice. -/
def newFilter (s : Str) (o : Nat) : FilterObject :=
  let r := makeFilter s o
  let bf := (parseBin r.2.1).getD []
  let bm := (parseBin r.2.2).getD []
  { str := s, size := s.length, offset := o,
    byteFilter := bf, byteMask := bm, byteOffset := r.1, byteSize := bf.length }

namespace FilterObject

/-- filtering/filter_object.go:58-65 loop of `Match`: `i` is the loop variable, the last argument
    the number of iterations left. `none` is the index-out-of-range panic. -/
def matchLoop (f : FilterObject) (id : List Byte) (i : Nat) : Nat → Option Bool
  | 0 => some true
  | n + 1 =>
    match id[f.byteOffset + i]?, f.byteMask[i]?, f.byteFilter[i]? with
    | some b, some m, some v =>
      if (b ||| m) ^^^ v ≠ 0#8 then some false else matchLoop f id (i + 1) n
    | _, _, _ => none

/-- filtering/filter_object.go:58-65 `Match` -/
def matchID (f : FilterObject) (id : List Byte) : Option Bool :=
  f.matchLoop id 0 f.byteSize

/-- filtering/filter_object.go:48-55 `HasByteAt` -/
def hasByteAt (f : FilterObject) (bo : Nat) : Bool :=
  if f.byteOffset > bo then false
  else if f.byteOffset + f.byteSize ≤ bo then false
  else true

/-- filtering/filter_object.go:35-44 `GetByteAt`: outer `none` is a panic, inner `none` the error.
    The loop at 37-41 returns at the first `i` with `bo == ByteOffset+i`. -/
def getByteAtLoop (f : FilterObject) (bo : Nat) (i : Nat) : Nat → Option (Option (Byte × Byte))
  | 0 => some none
  | n + 1 =>
    if bo = f.byteOffset + i then
      match f.byteFilter[i]?, f.byteMask[i]? with
      | some v, some m => some (some (v, m))
      | _, _ => none
    else getByteAtLoop f bo (i + 1) n

/-- filtering/filter_object.go:35-44 `GetByteAt` -/
def getByteAt (f : FilterObject) (bo : Nat) : Option (Option (Byte × Byte)) :=
  if f.hasByteAt bo then f.getByteAtLoop bo 0 f.byteSize else some none

/-- filtering/filter_object.go:74-84 `IsTransparent`. `reflect.DeepEqual` tells a nil slice from an empty one,
    which matters only for the nil slice of a filter string that is no bit string. -/
def isTransparent (f : FilterObject) : Bool :=
  let check := List.replicate f.byteSize 255#8
  decide (f.byteFilter = check) && decide (f.byteMask = check)

end FilterObject

/-- filtering/engine.go:123-136 `getNextBit`: `'x'` at the end of the ID, `none` is the error. -/
def getNextBit (id : List Byte) (nbo : Nat) : Option Char :=
  let o := nbo / 8
  if id.length = o ∧ nbo % 8 = 0 then some 'x'
  else match id[o]? with
    | none => none
    | some b => if (b >>> (7 - nbo % 8)) % 2#8 = 0#8 then some '0' else some '1'

end Gosstrak
