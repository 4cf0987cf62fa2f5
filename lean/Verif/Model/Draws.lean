import Verif.Model.Encode
import Verif.Model.ListEngine
import Verif.Model.Patricia
import Verif.Model.Splay

/-!
Conversions of subscriptions in which every pattern has random draws of its own. `toByteSubscriptions`
takes the encoder as a function, so there two conversions of one pattern give the same filter. In the
code a field that is left out is drawn anew at every call of `tdt.MakePrefixFilterString`.
-/
namespace Gosstrak

/-- the outcomes of `binutil.GenerateNLengthRandomBinRuneSlice` during one call of
    `tdt.MakePrefixFilterString`: call site, length and bound to the bits. No call site is passed twice
    in such a call (tdt/epc.go:122-130 once, one of 82-93, 108-119, 133-144, 147-159 once, 162-173
    once). -/
abbrev Toss := Nat → Nat → Nat → Str

/-- `binutil` with these outcomes -/
def Binutil.tossing (x : Binutil) (d : Toss) : Binutil := { x with randomBits := d }

/-- filtering/subscriptions.go:120-141 `ToByteSubscriptions` for the iteration order given by the list,
    where the call for the `n`-th pattern draws `ds n` -/
def Binutil.convert (x : Binutil) (ds : Nat → Toss) (sub : Subs) : FlatSubs :=
  (sub.foldl (fun b e => e.2.foldl (fun b pat =>
    (storePattern (x.tossing (ds b.2)).encoder e.1 b.1 pat, b.2 + 1)) b) (([] : FlatSubs), 0)).1

/-- filtering/list.go:34-61: a call on the List engine with its draws -/
def ListEngine.applyDrawn (x : Binutil) (ds : Nat → Toss) (l : ListEngine) : SubsOp → ListEngine
  | .add sub => (exactMatches (x.convert ds sub)).foldl ListEngine.addOne l
  | .delete sub => (exactMatches (x.convert ds sub)).foldl ListEngine.deleteOne l

/-- filtering/patricia_trie.go:36-49: a call on the Patricia trie with its draws -/
def PNode.applyDrawn (x : Binutil) (ds : Nat → Toss) (t : PNode) : SubsOp → PNode
  | .add sub =>
    let bsub := x.convert ds sub
    (mapKeys bsub).foldl (fun t fs => t.add fs ((mapGet bsub fs).getD [])) t
  | .delete sub => (mapKeys (x.convert ds sub)).foldl PNode.delete t

/-- filtering/splay_tree.go:36-49, 78-79: a call on the splay tree with its draws -/
def SNode.applyDrawn (x : Binutil) (ds : Nat → Toss) (t : SNode) : SplayCall → Option SNode
  | .add sub =>
    let bsub := x.convert ds sub
    (mapKeys bsub).foldlM (fun t fs => t.add fs ((mapGet bsub fs).getD [])) t
  | .delete sub => (mapKeys (x.convert ds sub)).foldlM SNode.delete t
  | .search id => (t.search id).map Prod.snd

/-- filtering/list.go:157-174 `NewList` and then calls, every one with draws of its own -/
def ListEngine.runDrawn (x : Binutil) (ds : Nat → Nat → Toss) (sub : Subs) (ops : List SubsOp) : ListEngine :=
  (ops.foldl (fun s op => (ListEngine.applyDrawn x (ds s.2) s.1 op, s.2 + 1))
    (exactMatches (x.convert (ds 0) sub), 1)).1

/-- filtering/patricia_trie.go:428-447 `NewPatriciaTrie` and then calls -/
def PNode.runDrawn (x : Binutil) (ds : Nat → Nat → Toss) (sub : Subs) (ops : List SubsOp) : PNode :=
  (ops.foldl (fun s op => (PNode.applyDrawn x (ds s.2) s.1 op, s.2 + 1))
    (newPatriciaFrom (x.convert (ds 0) sub), 1)).1

/-- filtering/splay_tree.go:346-362 `NewSplayTree` and then calls; `none` is a panic -/
def SNode.runDrawn (x : Binutil) (ds : Nat → Nat → Toss) (sub : Subs) (ops : List SplayCall) : Option SNode :=
  (newSplayFrom (x.convert (ds 0) sub)).bind fun t =>
    (ops.foldlM (fun (s : SNode × Nat) op => (SNode.applyDrawn x (ds s.2) s.1 op).map fun t => (t, s.2 + 1))
      (t, 1)).map Prod.fst

end Gosstrak
