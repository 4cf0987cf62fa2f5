import Verif.Model.Splay
import Verif.Model.Translate

/-!
The text form of the engines; that of the legacy engine is in Model/LegacyDump.
-/
namespace Gosstrak

/-- filtering/filter_object.go:68-70 `ToString`: `"%s(%d %d)"` of String, Offset, Size -/
def FilterObject.toStr (f : FilterObject) : Str :=
  f.str ++ ['('] ++ decStr f.offset ++ [' '] ++ decStr f.size ++ [')']

/-- filtering/patricia_trie.go:388-391, filtering/splay_tree.go:304-307: the URI with an arrow, or
    nothing -/
def reportText (uri : Str) : Str := if uri.length ≠ 0 then ['-', '>', ' '] ++ uri else []

/-- filtering/patricia_trie.go:387-399 `print` (on a non-nil node) -/
def PNode.print : PNode → Nat → Str
  | .nil, _ => []
  | .node u f one zero, indent =>
    List.replicate indent ' ' ++ ['-', '-'] ++ f.toStr ++ [' '] ++ reportText u ++ ['\n'] ++
      (if one ≠ .nil then one.print (indent + 2) else []) ++
      (if zero ≠ .nil then zero.print (indent + 2) else [])

/-- filtering/patricia_trie.go:52-56 `Dump` -/
def PNode.dump (t : PNode) : Str := t.print 0

/-- filtering/splay_tree.go:303-317 `print`; `none` is a nil dereference, of the node or of its
    filter. -/
def SNode.print : SNode → Nat → Option Str
  | .nil, _ => none
  | .node _ none _ _, _ => none
  | .node u (some f) m mm, indent =>
    (if m ≠ .nil then (m.print (indent + 2)).map (List.replicate (indent + 2) ' ' ++ ['o', 'k'] ++ ·)
      else some []).bind fun a =>
    (if mm ≠ .nil then (mm.print (indent + 2)).map (List.replicate (indent + 2) ' ' ++ ['n', 'g'] ++ ·)
      else some []).map fun b =>
    ['-', '-'] ++ f.toStr ++ [' '] ++ reportText u ++ ['\n'] ++ a ++ b

/-- filtering/splay_tree.go:52-56 `Dump` -/
def SNode.dump (t : SNode) : Option Str := t.print 0

/-- filtering/list.go:75-81 `Dump` -/
def ListEngine.dump (l : ListEngine) : Str :=
  l.flatMap fun em => ['-', '-'] ++ em.1.toStr ++ [' '] ++ em.2 ++ ['\n']

/-- filtering/subscriptions.go:360-368 `print`; `fuel` bounds the nesting -/
def BSub.print : Nat → BSub → Nat → Str
  | 0, _, _ => []
  | fuel + 1, b, indent =>
    (mapKeys b).flatMap fun fs =>
      match mapGet b fs with
      | none => []
      | some p =>
        List.replicate indent ' ' ++ ['-', '-'] ++ fs ++ [' '] ++ decStr p.offset ++ [' '] ++ p.uri ++ ['\n'] ++
          (if p.subset.length ≠ 0 then print fuel p.subset (indent + 2) else [])

mutual
/-- how deep the subset of an entry is nested -/
def PSub.depth : PSub → Nat
  | .mk _ _ s => BSub.depth s
/-- how deep a map is nested -/
def BSub.depth : List (Str × PSub) → Nat
  | [] => 0
  | e :: l => max (1 + entryDepth e) (BSub.depth l)
/-- how deep the subset of an entry is nested -/
def entryDepth : Str × PSub → Nat
  | (_, p) => PSub.depth p
end

/-- filtering/subscriptions.go:224-228 `Dump` -/
def BSub.dump (b : BSub) : Str := BSub.print (BSub.depth b) b 0

end Gosstrak
