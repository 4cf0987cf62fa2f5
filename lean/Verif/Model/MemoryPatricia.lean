import Verif.Model.Memory

/-! The Patricia trie at the level of pointers (cells as in Model/Memory; `l` is `one`, `r` is `zero`). -/
namespace Gosstrak

/-- filtering/patricia_trie.go:186-246 `add` on the node at `a` -/
def patAdd : Nat → Mem → Nat → Str → Str → Out Mem
  | 0, _, _, _, _ => .more
  | n + 1, h, a, fs, uri =>
    match h.get a with
    | none => .panic
    | some c => match c.f with
      | none => .panic
      | some f =>
        if hasPrefix fs f.str then
          if fs = f.str then
            .ok (if c.uri ≠ uri then h.upd a fun c => { c with uri := uri } else h)
          else if fs.length > f.size then
            match fs.drop f.size with
            | '1' :: _ => match c.l with
              | none =>
                let (h, b) := h.leaf (newFilter (fs.drop f.size) (f.offset + f.size)) uri
                .ok (h.upd a fun c => { c with l := some b })
              | some b => patAdd n h b (fs.drop f.size) uri
            | '0' :: _ => match c.r with
              | none =>
                let (h, b) := h.leaf (newFilter (fs.drop f.size) (f.offset + f.size)) uri
                .ok (h.upd a fun c => { c with r := some b })
              | some b => patAdd n h b (fs.drop f.size) uri
            | _ => .ok h
          else .ok h
        else
          let ncp := lcp [fs, f.str]
          let k := ncp.length
          let (h, x) := h.alloc
          let h := h.upd x fun c => { c with f := some (newFilter (f.str.drop k) (f.offset + k)) }
          let h := h.upd x fun cx => { cx with l := c.l }
          let h := h.upd x fun cx => { cx with r := c.r }
          let h := h.upd x fun cx => { cx with uri := c.uri }
          let h := h.upd a fun c => { c with uri := [] }
          let h := h.upd a fun c => { c with f := some (newFilter ncp f.offset) }
          if k ≥ fs.length then .ok h
          else match fs.drop k with
            | '1' :: _ =>
              let h := h.upd a fun c => { c with r := some x }
              let (h, b) := h.leaf (newFilter (fs.drop k) (f.offset + k)) uri
              .ok (h.upd a fun c => { c with l := some b })
            | '0' :: _ =>
              let h := h.upd a fun c => { c with l := some x }
              let (h, b) := h.leaf (newFilter (fs.drop k) (f.offset + k)) uri
              .ok (h.upd a fun c => { c with r := some b })
            | _ => .ok h

/-- filtering/patricia_trie.go:337-354: the recursive step of `delete` into the child `b`; `cut`
    removes the child from its parent, `rec` is the recursive call. -/
def patDeleteChild (rec : Mem → Nat → Str → Out Mem) (h : Mem) (p : Option Nat) (cut : Mem) (rest : Str) : Out Mem :=
  match p with
  | none => .ok h
  | some b => match h.get b with
    | none => .panic
    | some cb => match cb.f with
      | none => .panic
      | some fb =>
        if rest = fb.str ∧ cb.l = none ∧ cb.r = none then .ok cut else rec h b rest

/-- filtering/patricia_trie.go:309-359 `delete` on the node at `a` -/
def patDelete : Nat → Mem → Nat → Str → Out Mem
  | 0, _, _, _ => .more
  | n + 1, h, a, fs =>
    match h.get a with
    | none => .panic
    | some c => match c.f with
      | none => .panic
      | some f =>
        if ¬ hasPrefix fs f.str then .ok h
        else if fs = f.str then
          match c.l, c.r with
          | some _, some _ => .ok (h.upd a fun c => { c with uri := [] })
          | some b, none => match h.get b with
            | none => .panic
            | some cb => match cb.f with
              | none => .panic
              | some fb =>
                let h := h.upd a fun c => { c with f := some (newFilter (f.str ++ fb.str) f.offset) }
                let h := h.upd a fun c => { c with uri := cb.uri }
                let h := h.upd a fun c => { c with r := cb.r }
                .ok (h.upd a fun c => { c with l := cb.l })
          | none, some b => match h.get b with
            | none => .panic
            | some cb => match cb.f with
              | none => .panic
              | some fb =>
                let h := h.upd a fun c => { c with f := some (newFilter (f.str ++ fb.str) f.offset) }
                let h := h.upd a fun c => { c with uri := cb.uri }
                let h := h.upd a fun c => { c with l := cb.l }
                .ok (h.upd a fun c => { c with r := cb.r })
          | none, none => .ok h
        else if fs.length > f.size then
          match fs.drop f.size with
          | '1' :: _ => patDeleteChild (patDelete n) h c.l (h.upd a fun c => { c with l := none }) (fs.drop f.size)
          | '0' :: _ => patDeleteChild (patDelete n) h c.r (h.upd a fun c => { c with r := none }) (fs.drop f.size)
          | _ => .ok h
        else .ok h

/-- filtering/patricia_trie.go:401-424 `search` on the node at `a` -/
def patSearch : Nat → Mem → Nat → List Byte → Out (List Str)
  | 0, _, _, _ => .more
  | n + 1, h, a, id =>
    match h.get a with
    | none => .panic
    | some c => match c.f with
      | none => .panic
      | some f => match f.matchID id with
        | none => .panic
        | some false => .ok []
        | some true =>
          let uris := if c.uri.length ≠ 0 then [c.uri] else []
          match getNextBit id (f.offset + f.size) with
          | none => .panic
          | some nb =>
            if nb = '1' ∧ c.l ≠ none then
              Out.ifNotNil c.l (fun b => (patSearch n h b id).bind fun r => .ok (uris ++ r)) []
            else if nb = '0' ∧ c.r ≠ none then
              Out.ifNotNil c.r (fun b => (patSearch n h b id).bind fun r => .ok (uris ++ r)) []
            else .ok uris

/-- filtering/patricia_trie.go:290-292, 301-303: the URI of a whole filter -/
def Mem.setUri (h : Mem) (x : Nat) : Option Str → Mem
  | some u => h.upd x fun c => { c with uri := u }
  | none => h

/-- filtering/patricia_trie.go:285-294, 296-305: one branch of `build`; `set` stores the pointer to the
    new child in its parent, `rec` is the recursive call. -/
def patBuildChild (rec : Mem → Nat → Str → Out Mem) (bsub : FlatSubs) (h : Mem) (set : Mem → Nat → Mem)
    (pre b : Str) : Out Mem :=
  if b.length ≠ 0 then
    let (h, x) := h.alloc
    let h := set h x
    let h := h.upd x fun c => { c with f := some (newFilter b pre.length) }
    let cum := pre ++ b
    rec (h.setUri x (mapGet bsub cum)) x cum
  else .ok h

/-- filtering/patricia_trie.go:249-306 `build` on the node at `a` -/
def patBuild (bsub : FlatSubs) : Nat → Mem → Nat → Str → Out Mem
  | 0, _, _, _ => .more
  | n + 1, h, a, pre =>
    (patBuildChild (patBuild bsub n) bsub h (fun h x => h.upd a fun c => { c with l := some x }) pre
      (PNode.branch '1' pre (mapKeys bsub))).bind fun h =>
    patBuildChild (patBuild bsub n) bsub h (fun h x => h.upd a fun c => { c with r := some x }) pre
      (PNode.branch '0' pre (mapKeys bsub))

/-- A Patricia trie in memory: the heap and the field `root` (filtering/patricia_trie.go:21-24), which
    is set once and never changes. -/
structure PatMem where
  heap : Mem
  root : Nat

/-- filtering/patricia_trie.go:428-447 `NewPatriciaTrie` in the memory `h`, recursion limited to `n` -/
def newPatMem (mk : Encoder) (n : Nat) (h : Mem) (sub : Subs) : Out PatMem :=
  let bsub := toByteSubscriptions mk sub
  let p1 := lcp (mapKeys bsub)
  let (h, a) := h.alloc
  let h := h.upd a fun c => { c with f := some (newFilter p1 0) }
  (patBuild bsub n h a p1).bind fun h => .ok ⟨h, a⟩

/-- filtering/patricia_trie.go:36-41, 44-49 -/
def PatMem.call (mk : Encoder) (n : Nat) (s : PatMem) : SubsOp → Out PatMem
  | .add sub =>
    let bsub := toByteSubscriptions mk sub
    Out.loop (fun (s : PatMem) fs =>
      (patAdd n s.heap s.root fs ((mapGet bsub fs).getD [])).bind fun h => .ok { s with heap := h }) (mapKeys bsub) s
  | .delete sub =>
    Out.loop (fun (s : PatMem) fs =>
      (patDelete n s.heap s.root fs).bind fun h => .ok { s with heap := h }) (mapKeys (toByteSubscriptions mk sub)) s

end Gosstrak
