import Verif.Model.ListEngine

namespace Gosstrak

/-- filtering/patricia_trie.go:27-32 `PatriciaTrieNode`; `nil` is the nil pointer. -/
inductive PNode where
  | nil
  | node (uri : Str) (f : FilterObject) (one zero : PNode)
deriving DecidableEq, Repr

namespace PNode

/-- filtering/patricia_trie.go:401-424 `search`; `none` is a panic (out-of-range in `Match`, the
    explicit `panic(err)` at 417-419, or a nil receiver). -/
def search : PNode → List Byte → Option (List Str)
  | .nil, _ => none
  | .node uri f one zero, id =>
    match f.matchID id with
    | none => none
    | some false => some []
    | some true =>
      let uris := if uri.length ≠ 0 then [uri] else []
      match getNextBit id (f.offset + f.size) with
      | none => none
      | some nb =>
        if nb = '1' ∧ one ≠ .nil then (one.search id).map (uris ++ ·)
        else if nb = '0' ∧ zero ≠ .nil then (zero.search id).map (uris ++ ·)
        else some uris

/-- filtering/patricia_trie.go:253-279: the branch prefix for the remainders that start with `c`.
    `HasPrefix(fk, prefix)` implies the length test of 255-257. -/
def branch (c : Char) (pre : Str) (keys : List Str) : Str :=
  keys.foldl (fun acc fk =>
    if hasPrefix fk pre then
      let p := fk.drop pre.length
      if p.head? = some c then (if acc.length = 0 then p else lcp [p, acc]) else acc
    else acc) []

/-- filtering/patricia_trie.go:249-306 `build`, giving the children (one, zero) of a node whose
    cumulative prefix is `pre`. The recursion is cut off after `fuel` levels; every level makes the
    prefix longer, and no prefix is longer than the longest key, so `newPatricia` starts with enough
    fuel (`build_fuel` in Proofs/Patricia). -/
def build (bsub : FlatSubs) : Nat → Str → PNode × PNode
  | 0, _ => (.nil, .nil)
  | fuel + 1, pre =>
    let child (c : Char) : PNode :=
      let b := branch c pre (mapKeys bsub)
      if b.length ≠ 0 then
        let cum := pre ++ b
        let ch := build bsub fuel cum
        .node ((mapGet bsub cum).getD []) (newFilter b pre.length) ch.1 ch.2
      else .nil
    (child '1', child '0')

/-- filtering/patricia_trie.go:186-246 `add` (on a non-nil node; a nil receiver would panic and is
    left unchanged here, no call reaches it). -/
def add : PNode → Str → Str → PNode
  | .nil, _, _ => .nil
  | .node u f one zero, fs, uri =>
    if hasPrefix fs f.str then
      if fs = f.str then .node (if u ≠ uri then uri else u) f one zero
      else if fs.length > f.size then
        let rest := fs.drop f.size
        -- 227-245; `rest` is not empty
        match rest with
        | '1' :: _ =>
          match one with
          | .nil => .node u f (.node uri (newFilter rest (f.offset + f.size)) .nil .nil) zero
          | o => .node u f (o.add rest uri) zero
        | '0' :: _ =>
          match zero with
          | .nil => .node u f one (.node uri (newFilter rest (f.offset + f.size)) .nil .nil)
          | z => .node u f one (z.add rest uri)
        | _ => .node u f one zero
      else .node u f one zero
    else
      let ncp := lcp [fs, f.str]
      let n := ncp.length
      let newNode := PNode.node u (newFilter (f.str.drop n) (f.offset + n)) one zero
      if n ≥ fs.length then .node [] (newFilter ncp f.offset) one zero
      else
        let leaf := PNode.node uri (newFilter (fs.drop n) (f.offset + n)) .nil .nil
        match fs.drop n with
        | '1' :: _ => .node [] (newFilter ncp f.offset) leaf newNode
        | '0' :: _ => .node [] (newFilter ncp f.offset) newNode leaf
        | _ => .node [] (newFilter ncp f.offset) one zero

/-- is the pointer to a leaf with filter string `s`? (patricia_trie.go:339-340, 348-349) -/
def isLeafWith (n : PNode) (s : Str) : Bool :=
  match n with
  | .node _ f .nil .nil => f.str = s
  | _ => false

/-- filtering/patricia_trie.go:309-359 `delete`. The `reportURI` argument is never used there. -/
def delete : PNode → Str → PNode
  | .nil, _ => .nil
  | .node u f one zero, fs =>
    if ¬ hasPrefix fs f.str then .node u f one zero
    else if fs = f.str then
      match one, zero with
      | .node .., .node .. => .node [] f one zero
      | .node u1 f1 o1 z1, .nil => .node u1 (newFilter (f.str ++ f1.str) f.offset) o1 z1
      | .nil, .node u0 f0 o0 z0 => .node u0 (newFilter (f.str ++ f0.str) f.offset) o0 z0
      | .nil, .nil => .node u f one zero
    else if fs.length > f.size then
      let rest := fs.drop f.size
      match rest with
      | '1' :: _ =>
        match one with
        | .nil => .node u f one zero
        | o => if o.isLeafWith rest then .node u f .nil zero else .node u f (o.delete rest) zero
      | '0' :: _ =>
        match zero with
        | .nil => .node u f one zero
        | z => if z.isLeafWith rest then .node u f one .nil else .node u f one (z.delete rest)
      | _ => .node u f one zero
    else .node u f one zero

end PNode

/-- length of the longest key -/
def maxKeyLength (bsub : FlatSubs) : Nat :=
  bsub.foldr (fun e n => max e.1.length n) 0

/-- filtering/patricia_trie.go:428-447 `NewPatriciaTrie`, from the converted map. The root's
    `reportURI` is never set. -/
def newPatriciaFrom (bsub : FlatSubs) : PNode :=
  let p1 := lcp (mapKeys bsub)
  let ch := PNode.build bsub (maxKeyLength bsub + 1) p1
  .node [] (newFilter p1 0) ch.1 ch.2

/-- filtering/patricia_trie.go:428-447 `NewPatriciaTrie` -/
def newPatricia (mk : Encoder) (sub : Subs) : PNode :=
  newPatriciaFrom (toByteSubscriptions mk sub)

/-- filtering/patricia_trie.go:78-85 `Search` -/
def PNode.searchEngine (t : PNode) (tr : Translator) (pc id : List Byte) : Option SearchResult :=
  match t.search id with
  | none => none
  | some uris => finishSearch tr pc id uris

/-- filtering/patricia_trie.go:36-41 `AddSubscription` -/
def PNode.addSubscription (mk : Encoder) (t : PNode) (sub : Subs) : PNode :=
  let bsub := toByteSubscriptions mk sub
  (mapKeys bsub).foldl (fun t fs => t.add fs ((mapGet bsub fs).getD [])) t

/-- filtering/patricia_trie.go:44-49 `DeleteSubscription` -/
def PNode.deleteSubscription (mk : Encoder) (t : PNode) (sub : Subs) : PNode :=
  (mapKeys (toByteSubscriptions mk sub)).foldl PNode.delete t

/-- one call on the engine (patricia_trie.go:36-49) -/
def PNode.applyOp (mk : Encoder) (t : PNode) : SubsOp → PNode
  | .add s => t.addSubscription mk s
  | .delete s => t.deleteSubscription mk s

end Gosstrak
