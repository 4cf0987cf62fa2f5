import Mathlib.Data.List.Forall2
import Verif.Spec.EPC
import Verif.Spec.Splay
import Verif.Model.Patricia
import Verif.Spec.Linked

/-! What the text form of an engine says. -/
namespace Gosstrak

/-- the content of a line: its indentation, the word before the dashes, the filter and the URI -/
structure DumpLine where
  depth : Nat
  tag : Str
  str : Str
  offset : Nat
  size : Nat
  uri : Str
deriving DecidableEq

/-- The text `s`, without the newline, says `l`. With `arrow`, a URI follows an arrow, and an empty one
    is left out with it. -/
def DumpLine.Says (arrow : Bool) (l : DumpLine) (s : Str) : Prop :=
  ∃ so ss tail, Numeral l.offset so ∧ Numeral l.size ss ∧
    (if arrow then (l.uri = [] ∧ tail = []) ∨ (l.uri ≠ [] ∧ tail = "-> ".toList ++ l.uri) else tail = l.uri) ∧
    s = List.replicate l.depth ' ' ++ l.tag ++ "--".toList ++ l.str ++ "(".toList ++ so ++ " ".toList ++ ss ++
      ") ".toList ++ tail

/-- no character of the line can be mistaken for a separator -/
def DumpLine.Clean (l : DumpLine) : Prop :=
  IsBitStr l.str ∧ '\n' ∉ l.uri ∧ ∀ c ∈ l.tag, c ∈ "okng".toList

/-- `text` consists of lines that say `ls`. -/
def TextSays (arrow : Bool) (ls : List DumpLine) (text : Str) : Prop :=
  ∃ ss, List.Forall₂ (DumpLine.Says arrow) ls ss ∧ text = ss.flatMap (· ++ ['\n'])

/-- the line for a node -/
def nodeLine (d : Nat) (tag uri : Str) (f : FilterObject) : DumpLine := ⟨d, tag, f.str, f.offset, f.size, uri⟩

/-- A filter as `NewFilter` makes it, and texts that can be read back. -/
def Printable (n : Str × Option FilterObject) : Prop :=
  '\n' ∉ n.1 ∧ ∃ f, n.2 = some f ∧ IsBitStr f.str ∧ f = newFilter f.str f.offset

/-- the nodes of a splay tree, each before its children, the matching child first; children are
    indented by two and tagged -/
def SNode.lines : SNode → Nat → Str → List DumpLine
  | .nil, _, _ => []
  | .node u f m mm, d, tag =>
    (f.map fun f => nodeLine d tag u f).toList ++ m.lines (d + 2) "ok".toList ++ mm.lines (d + 2) "ng".toList

/-- all nodes of a trie, as (URI, filter) -/
def PNode.nodes : PNode → List (Str × Option FilterObject)
  | .nil => []
  | .node u f one zero => (u, some f) :: (one.nodes ++ zero.nodes)

/-- the nodes of a trie, each before its children -/
def PNode.lines : PNode → Nat → List DumpLine
  | .nil, _ => []
  | .node u f one zero, d => nodeLine d [] u f :: (one.lines (d + 2) ++ zero.lines (d + 2))

/-- the filter string of every child starts with its bit -/
def PNode.BitBranches : PNode → Prop
  | .nil => True
  | .node _ _ one zero =>
    (∀ u f o z, one = .node u f o z → f.str.head? = some '1') ∧
    (∀ u f o z, zero = .node u f o z → f.str.head? = some '0') ∧ one.BitBranches ∧ zero.BitBranches

/-- The lines of a List engine. -/
def listLines (l : ListEngine) : List DumpLine := l.map fun e => nodeLine 0 [] e.2 e.1

/-- every filter that a call brings is a bit string, and its URI has no newline -/
def TextSafe (mk : Encoder) (sub : Subs) : Prop :=
  ∀ k u, (k, u) ∈ toByteSubscriptions mk sub → IsBitStr k ∧ '\n' ∉ u

/-- the same for a call on a splay tree -/
def SplayCall.TextSafe (mk : Encoder) : SplayCall → Prop
  | .add s => Gosstrak.TextSafe mk s
  | .delete s => Gosstrak.TextSafe mk s
  | .search _ => True

/-- the same for a call on another engine -/
def SubsOp.TextSafe (mk : Encoder) : SubsOp → Prop
  | .add s => Gosstrak.TextSafe mk s
  | .delete s => Gosstrak.TextSafe mk s

/-! ### nested subscriptions -/

/-- the content of a line for nested subscriptions -/
structure NestedLine where
  depth : Nat
  str : Str
  offset : Nat
  uri : Str

/-- The text `s`, without the newline, says `l`. -/
def NestedLine.Says (l : NestedLine) (s : Str) : Prop :=
  ∃ so, Numeral l.offset so ∧
    s = List.replicate l.depth ' ' ++ "--".toList ++ l.str ++ " ".toList ++ so ++ " ".toList ++ l.uri

/-- `text` consists of lines that say `ls`. -/
def NestedText (ls : List NestedLine) (text : Str) : Prop :=
  ∃ ss, List.Forall₂ NestedLine.Says ls ss ∧ text = ss.flatMap (· ++ ['\n'])

mutual
/-- the lines of nested subscriptions: the entries in ascending order of the filters -/
inductive NestedLines : Nat → BSub → List NestedLine → Prop
  | mk {d b es ls} : es.Perm b → (es.map Prod.fst).Pairwise (· < ·) → EntryLines d es ls → NestedLines d b ls
/-- the lines of some entries: for each one its line and those of its subset, indented by two -/
inductive EntryLines : Nat → List (Str × PSub) → List NestedLine → Prop
  | nil {d} : EntryLines d [] []
  | cons {d k o u s es ls ls'} : NestedLines (d + 2) s ls → EntryLines d es ls' →
      EntryLines d ((k, PSub.mk o u s) :: es) (⟨d, k, o, u⟩ :: (ls ++ ls'))
end

end Gosstrak
