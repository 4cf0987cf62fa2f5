import Verif.Model.Strings

namespace Gosstrak

/-! ### Go maps with string keys

An association list with distinct keys. The order of the list is the order in which a `range` loop
happens to visit the map, so a theorem for all lists, or for all permutations of a list, is a
theorem for all iteration orders. -/

/-- `m[k]` -/
def mapGet {α : Type} : List (Str × α) → Str → Option α
  | [], _ => none
  | (k, v) :: m, q => if k = q then some v else mapGet m q

/-- `m[k] = v` -/
def mapSet {α : Type} : List (Str × α) → Str → α → List (Str × α)
  | [], q, w => [(q, w)]
  | (k, v) :: m, q, w => if k = q then (k, w) :: m else (k, v) :: mapSet m q w

/-- `delete(m, k)` -/
def mapDelete {α : Type} : List (Str × α) → Str → List (Str × α)
  | [], _ => []
  | (k, v) :: m, q => if k = q then mapDelete m q else (k, v) :: mapDelete m q

/-- filtering/subscriptions.go:49-58 and 231-240 `Keys` (of Subscriptions and ByteSubscriptions):
    collect the keys in iteration order, then `sort.Strings`. -/
def mapKeys {α : Type} (m : List (Str × α)) : List Str :=
  sortStrings (m.map Prod.fst)

/-- filtering/subscriptions.go:34 `Subscriptions`: report URI ↦ patterns. -/
abbrev Subs := List (Str × List Str)

/-- filtering/subscriptions.go:23-31 `ByteSubscriptions` with every `Offset` 0 and every `Subset`
    empty, which is what `ToByteSubscriptions` returns: filter string ↦ report URI. -/
abbrev FlatSubs := List (Str × Str)

/-! ### Go string functions -/

/-- `strings.Split(s, c)` for a one-character separator -/
def splitOn (c : Char) : Str → List Str
  | [] => [[]]
  | d :: s =>
    if d = c then [] :: splitOn c s
    else match splitOn c s with
      | [] => [[d]]
      | h :: t => (d :: h) :: t

/-- `strings.TrimPrefix(s, p)` -/
def trimPrefix (s p : Str) : Str := if hasPrefix s p then s.drop p.length else s

/-- `strings.ToUpper` (ASCII) -/
def toUpper (s : Str) : Str := s.map Char.toUpper

/-- `strings.ToLower` (ASCII) -/
def toLower (s : Str) : Str := s.map Char.toLower

/-- `tdt.MakePrefixFilterString` as seen from here: scheme and fields to a filter string, `none` an
    error. With an error the returned string is `""` (tdt/core.go:845-862 and the `return "", err`
    of tdt/epc.go and tdt/iso.go). -/
abbrev Encoder := Str → List Str → Option Str

/-- filtering/subscriptions.go:123-138: body of the loops of `ToByteSubscriptions`. The error is only
    logged (131-133), the entry is stored all the same. -/
def storePattern (mk : Encoder) (uri : Str) (bsub : FlatSubs) (pat : Str) : FlatSubs :=
  match splitOn ':' (trimPrefix pat "urn:epc:pat:".toList) with
  | [t, f] => mapSet bsub ((mk t (splitOn '.' (toUpper f))).getD []) uri
  | _ => bsub

/-- filtering/subscriptions.go:120-141 `ToByteSubscriptions`, for the iteration order given by the
    list. -/
def toByteSubscriptions (mk : Encoder) (sub : Subs) : FlatSubs :=
  sub.foldl (fun b e => e.2.foldl (storePattern mk e.1) b) []

end Gosstrak
