import Verif.Model.Splay

/-!
The tree engines at the level of pointers. A node is a cell of a heap, a pointer an address or nil;
every assignment of the Go code to a field of a node is one update of the heap, in the order of the
code. Filter objects are values: the code replaces them but never writes into one after `NewFilter`
(filter_object.go:127-147), so sharing them cannot be observed.
-/
namespace Gosstrak

/-- filtering/splay_tree.go:28-33 `SplayTreeNode` (`l` is `matchNext`, `r` is `mismatchNext`) and
    filtering/patricia_trie.go:27-32 `PatriciaTrieNode` (`l` is `one`, `r` is `zero`): a node in
    memory. The zero value is the result of `&SplayTreeNode{}`. -/
structure Cell where
  uri : Str := []
  f : Option FilterObject := none
  l : Option Nat := none
  r : Option Nat := none

/-- The memory that holds the nodes. Addresses from `next` on have not been handed out. -/
structure Mem where
  next : Nat := 0
  get : Nat → Option Cell := fun _ => none

/-- The outcome of a run with limited recursion depth: `ok`, a panic, or more depth is needed. -/
inductive Out (α : Type) where
  | ok (a : α)
  | panic
  | more

namespace Out

/-- sequencing -/
def bind {α β : Type} (x : Out α) (k : α → Out β) : Out β :=
  match x with
  | .ok a => k a
  | .panic => .panic
  | .more => .more

/-- `if p != nil { … }`, otherwise the value `a` -/
def ifNotNil {α : Type} (p : Option Nat) (k : Nat → Out α) (a : α) : Out α :=
  match p with
  | none => .ok a
  | some b => k b

/-- a loop that threads a state -/
def loop {σ κ : Type} (step : σ → κ → Out σ) : List κ → σ → Out σ
  | [], s => .ok s
  | k :: ks, s => (step s k).bind fun s => loop step ks s

end Out

namespace Mem

/-- `&SplayTreeNode{}`, `&PatriciaTrieNode{}` (e.g. filtering/splay_tree.go:193): a cell at an address
    that was never used -/
def alloc (h : Mem) : Mem × Nat :=
  (⟨h.next + 1, fun a => if a = h.next then some {} else h.get a⟩, h.next)

/-- an assignment to fields of the node at `a` (e.g. filtering/splay_tree.go:194-195) -/
def upd (h : Mem) (a : Nat) (g : Cell → Cell) : Mem :=
  ⟨h.next, fun b => if b = a then (h.get b).map g else h.get b⟩

/-- filtering/splay_tree.go:193-195, 203-205, filtering/patricia_trie.go:214-216, 219-221, 231-233,
    239-241: a new leaf -/
def leaf (h : Mem) (f : FilterObject) (uri : Str) : Mem × Nat :=
  let (h, b) := h.alloc
  ((h.upd b fun c => { c with f := some f }).upd b fun c => { c with uri := uri }, b)

end Mem

/-! ## the splay tree -/

/-- filtering/splay_tree.go:184-210 `add` on the node at `a` -/
def splayAdd : Nat → Mem → Nat → Str → Str → Out Mem
  | 0, _, _, _, _ => .more
  | n + 1, h, a, fs, uri =>
    match h.get a with
    | none => .panic
    | some c => match c.f with
      | none => .panic
      | some f =>
        if hasPrefix fs f.str then
          if fs = f.str then
            .ok (if c.uri ≠ uri then h.upd a fun c => { c with uri := uri } else h)
          else match c.l with
            | none =>
              let (h, b) := h.leaf (newFilter (fs.drop f.size) (f.offset + f.size)) uri
              .ok (h.upd a fun c => { c with l := some b })
            | some b => splayAdd n h b (fs.drop f.size) uri
        else match c.r with
          | none =>
            let (h, b) := h.leaf (newFilter fs f.offset) uri
            .ok (h.upd a fun c => { c with r := some b })
          | some b => splayAdd n h b fs uri

/-- filtering/splay_tree.go:236-275 `delete` on the node at `a` -/
def splayDelete : Nat → Mem → Nat → Str → Out Mem
  | 0, _, _, _ => .more
  | n + 1, h, a, fs =>
    match h.get a with
    | none => .panic
    | some c => match c.f with
      | none => .panic
      | some f =>
        if hasPrefix fs f.str then
          if fs = f.str then
            match c.l, c.r with
            | none, none => .ok h
            | some b, _ => match h.get b with
              | none => .panic
              | some cb =>
                if cb.r ≠ none then .ok (h.upd a fun c => { c with uri := [] })
                else match cb.f with
                  | none => .panic
                  | some fb =>
                    let h := h.upd a fun c => { c with f := some (newFilter (fs ++ fb.str) f.offset) }
                    let h := h.upd a fun c => { c with uri := cb.uri }
                    .ok (h.upd a fun c => { c with l := cb.l })
            | none, some b => match h.get b with
              | none => .panic
              | some cb =>
                let h := h.upd a fun c => { c with f := cb.f }
                let h := h.upd a fun c => { c with uri := cb.uri }
                let h := h.upd a fun c => { c with l := cb.l }
                .ok (h.upd a fun c => { c with r := cb.r })
          else match c.l with
            | none => .ok h
            | some b => match h.get b with
              | none => .panic
              | some cb => match cb.f with
                | none => .panic
                | some fb =>
                  if fs.drop f.size = fb.str ∧ cb.l = none ∧ cb.r = none then
                    .ok (h.upd a fun c => { c with l := none })
                  else splayDelete n h b (fs.drop f.size)
        else match c.r with
          | none => .ok h
          | some b => match h.get b with
            | none => .panic
            | some cb => match cb.f with
              | none => .panic
              | some fb =>
                if fs = fb.str ∧ cb.l = none ∧ cb.r = none then
                  .ok (h.upd a fun c => { c with r := none })
                else splayDelete n h b fs

/-- filtering/splay_tree.go:319-342 `splaySearch` on the node at `a`; `root` is the field `root` of the
    tree. The matches come with the memory and the root afterwards. -/
def splaySearchAt : Nat → Mem → Option Nat → Nat → Option Nat → List Byte → Out (Mem × Option Nat × List Str)
  | 0, _, _, _, _, _ => .more
  | n + 1, h, root, a, parent, id =>
    match h.get a with
    | none => .panic
    | some c => match c.f with
      | none => .panic
      | some f => match f.matchID id with
        | none => .panic
        | some true =>
          (Out.ifNotNil c.l (fun b => splaySearchAt n h root b none id) (h, root, [])).bind
            fun (h, root, ms) =>
          match parent with
          | none => .ok (h, root, c.uri :: ms)
          | some p => match h.get a with
            | none => .panic
            | some c' =>
              let h := h.upd p fun cp => { cp with r := c'.r }
              let h := h.upd a fun c => { c with r := root }
              .ok (h, some a, c.uri :: ms)
        | some false =>
          match c.r with
          | some b => splaySearchAt n h root b (some a) id
          | none => .ok (h, root, [])

/-- filtering/splay_tree.go:216-231: the loop of `build` from the node `cur` on; `rec` is the recursive
    call at 222. -/
def splayBuildKeys (rec : Mem → Nat → BSub → Out Mem) (b : BSub) : List Str → Mem → Nat → Out Mem
  | [], h, _ => .ok h
  | fs :: rest, h, cur =>
    match mapGet b fs with
    | none => .panic
    | some p =>
      let h := h.upd cur fun c => { c with f := some (newFilter fs p.offset) }
      let h := h.upd cur fun c => { c with uri := p.uri }
      (if p.subset.length ≠ 0 then
        let (h, x) := h.alloc
        (rec h x p.subset).bind fun h => .ok (h.upd cur fun c => { c with l := some x })
      else .ok (h.upd cur fun c => { c with l := none })).bind fun h =>
      if rest ≠ [] then
        let (h, y) := h.alloc
        splayBuildKeys rec b rest (h.upd cur fun c => { c with r := some y }) y
      else .ok (h.upd cur fun c => { c with r := none })

/-- filtering/splay_tree.go:212-233 `build` on the node at `a` -/
def splayBuild : Nat → Mem → Nat → BSub → Out Mem
  | 0, _, _, _ => .more
  | n + 1, h, a, b => splayBuildKeys (splayBuild n) b (mapKeys b) h a

/-- A splay tree in memory: the heap and the field `root` (filtering/splay_tree.go:22-25). -/
structure SplayMem where
  heap : Mem
  root : Option Nat

/-- filtering/splay_tree.go:346-362 `NewSplayTree` in the memory `h`, recursion limited to `n` -/
def newSplayMem (mk : Encoder) (n : Nat) (h : Mem) (sub : Subs) : Out SplayMem :=
  match linkSubset (toByteSubscriptions mk sub) with
  | none => .panic
  | some l =>
    let (h, a) := h.alloc
    (splayBuild n h a l).bind fun h => .ok ⟨h, some a⟩

/-- filtering/splay_tree.go:36-41, 44-49, 78-79: a call; the matches are those of a search. -/
def SplayMem.call (mk : Encoder) (n : Nat) (s : SplayMem) : SplayCall → Out (SplayMem × List Str)
  | .add sub =>
    let bsub := toByteSubscriptions mk sub
    (Out.loop (fun (s : SplayMem) fs => match s.root with
      | none => .panic
      | some a => (splayAdd n s.heap a fs ((mapGet bsub fs).getD [])).bind fun h => .ok { s with heap := h })
      (mapKeys bsub) s).bind fun s => .ok (s, [])
  | .delete sub =>
    (Out.loop (fun (s : SplayMem) fs => match s.root with
      | none => .panic
      | some a => (splayDelete n s.heap a fs).bind fun h => .ok { s with heap := h })
      (mapKeys (toByteSubscriptions mk sub)) s).bind fun s => .ok (s, [])
  | .search id => match s.root with
    | none => .panic
    | some a => (splaySearchAt n s.heap s.root a none id).bind fun (h, root, ms) => .ok (⟨h, root⟩, ms)

/-- a sequence of calls (filtering/splay_tree.go:36-49, 78-79) with the matches of each -/
def SplayMem.run (mk : Encoder) (n : Nat) : SplayMem → List SplayCall → Out (SplayMem × List (List Str))
  | s, [] => .ok (s, [])
  | s, c :: cs => (s.call mk n c).bind fun (s, ms) => (run mk n s cs).bind fun (s, mss) => .ok (s, ms :: mss)

end Gosstrak
