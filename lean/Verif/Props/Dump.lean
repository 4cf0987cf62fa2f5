import Verif.Proofs.DumpNested
import Verif.Proofs.PatriciaDamage
import Verif.Props.Splay

/-! C79: what the text form of an engine says, and that it says everything. -/
namespace Gosstrak

/-- C79: the text of a splay tree consists of one line per node, in the order of the tree. -/
theorem C79_splay_text (t : SNode) (ht : t ≠ .nil) (hf : ∀ n ∈ t.nodes, n.2 ≠ none) :
    ∃ text, t.dump = some text ∧ TextSays true (t.lines 0 []) text := by
  obtain ⟨text, h1, h2⟩ := print_splay t 0 [] ht fun n hn => Option.ne_none_iff_exists'.mp (hf n hn)
  exact ⟨text, h1, by simpa using h2⟩

/-- C79: whatever calls two splay trees have seen, if their texts agree the trees agree, node by
    node. -/
theorem C79_splay_faithful (mk mk' : Encoder) (sub sub' : Subs) (calls calls' : List SplayCall) (t0 t0' t t' : SNode)
    (hne : toByteSubscriptions mk sub ≠ []) (hne' : toByteSubscriptions mk' sub' ≠ [])
    (hs : TextSafe mk sub) (hs' : TextSafe mk' sub') (hc : ∀ c ∈ calls, c.TextSafe mk) (hc' : ∀ c ∈ calls', c.TextSafe mk')
    (h0 : newSplay mk sub = some t0) (h0' : newSplay mk' sub' = some t0')
    (ht : calls.foldlM (SNode.applyCall mk) t0 = some t) (ht' : calls'.foldlM (SNode.applyCall mk') t0' = some t') :
    (∃ text, t.dump = some text ∧ TextSays true (t.lines 0 []) text) ∧ (t.dump = t'.dump → t = t') := by
  obtain ⟨p1, p2⟩ := printable_history hne hs hc h0 ht
  obtain ⟨q1, q2⟩ := printable_history hne' hs' hc' h0' ht'
  have all : ∀ {t : SNode}, t.AllPrintable → ∀ n ∈ t.nodes, n.2 ≠ none := by
    intro t h n hn
    obtain ⟨-, f, hf, -⟩ := h n hn
    simp [hf]
  obtain ⟨x, x1, x2⟩ := C79_splay_text t p2 (all p1)
  obtain ⟨y, y1, y2⟩ := C79_splay_text t' q2 (all q1)
  refine ⟨⟨x, x1, x2⟩, fun h => ?_⟩
  rw [x1, y1] at h
  cases h
  have h := textSays_unique (lines_clean t 0 [] p1 (by simp)) (lines_clean t' 0 [] q1 (by simp)) x2 y2
  exact (lines_inj t t' 0 [] [] [] p1 q1 (by simp [Ends]) (by simp [Ends]) (by simpa using h)).1

/-- C79, the code: the text of a splay tree made of no subscription cannot be had, `Dump` panics. -/
theorem C79_splay_empty (mk : Encoder) (sub : Subs) (h : toByteSubscriptions mk sub = []) :
    ∃ t, newSplay mk sub = some t ∧ t.dump = none := by
  refine ⟨.node [] none .nil .nil, ?_, rfl⟩
  unfold newSplay newSplayFrom
  rw [h]
  rfl

/-- C79: the text of a trie consists of one line per node, in the order of the trie; whatever calls
    two tries have seen, if their texts agree the tries agree, node by node. -/
theorem C79_trie_faithful (mk mk' : Encoder) (sub sub' : Subs) (ops ops' : List SubsOp)
    (hs : TextSafe mk sub) (hs' : TextSafe mk' sub') (ho : ∀ op ∈ ops, op.TextSafe mk) (ho' : ∀ op ∈ ops', op.TextSafe mk') :
    let t := ops.foldl (PNode.applyOp mk) (newPatricia mk sub)
    let t' := ops'.foldl (PNode.applyOp mk') (newPatricia mk' sub')
    TextSays true (t.lines 0) t.dump ∧ (t.dump = t'.dump → t = t') := by
  intro t t'
  have p := readable_history hs ops ho
  have q := readable_history hs' ops' ho'
  refine ⟨print_patricia t 0, fun h => ?_⟩
  have h1 := print_patricia t 0
  have h2 := print_patricia t' 0
  unfold PNode.dump at h
  rw [← h] at h2
  exact plines_inj t t' 0 p.1 q.1 p.2 q.2 (textSays_unique (plines_clean t 0 p.1) (plines_clean t' 0 q.1) h1 h2)

/-- C79: the same for the List engine. -/
theorem C79_list_faithful (mk mk' : Encoder) (sub sub' : Subs) (ops ops' : List SubsOp)
    (hs : TextSafe mk sub) (hs' : TextSafe mk' sub') (ho : ∀ op ∈ ops, op.TextSafe mk) (ho' : ∀ op ∈ ops', op.TextSafe mk') :
    let l := ops.foldl (ListEngine.apply mk) (newList mk sub)
    let l' := ops'.foldl (ListEngine.apply mk') (newList mk' sub')
    TextSays false (listLines l) l.dump ∧ (l.dump = l'.dump → l = l') := by
  intro l l'
  have p := list_history hs ops ho
  have q := list_history hs' ops' ho'
  refine ⟨list_text l, fun h => ?_⟩
  have h1 := list_text l
  rw [h] at h1
  exact listLines_inj p q (textSays_unique (list_clean p) (list_clean q) h1 (list_text l'))

/-- C79: the text of linked subscriptions lists the entries, those of a subset below its owner, and
    determines which filters are linked to which URIs. -/
theorem C79_linked_faithful (mk mk' : Encoder) (sub sub' : Subs) (hs : TextSafe mk sub) (hs' : TextSafe mk' sub') :
    ∃ b b', linkSubset (toByteSubscriptions mk sub) = some b ∧ linkSubset (toByteSubscriptions mk' sub') = some b' ∧
      (∃ ls, NestedLines 0 b ls ∧ NestedText ls b.dump) ∧
      (b.dump = b'.dump → ∀ k u, (k, u) ∈ toByteSubscriptions mk sub ↔ (k, u) ∈ toByteSubscriptions mk' sub') := by
  obtain ⟨b, h1, h2, h3, -⟩ := linkSubset_spec _ (isMap_toByteSubscriptions mk sub)
  obtain ⟨b', g1, g2, g3, -⟩ := linkSubset_spec _ (isMap_toByteSubscriptions mk' sub')
  obtain ⟨ls, x1, x2⟩ := nested_text (BSub.depth b) b 0 h2 (Nat.le_refl _)
  obtain ⟨ls', y1, y2⟩ := nested_text (BSub.depth b') b' 0 g2 (Nat.le_refl _)
  refine ⟨b, b', h1, g1, ⟨ls, x1, x2⟩, fun h k u => ?_⟩
  unfold BSub.dump at h
  rw [← h] at y2
  have e := nestedText_unique (nested_clean x1 fun q u hq => hs q u ((h3 q u).mp hq))
    (nested_clean y1 fun q u hq => hs' q u ((g3 q u).mp hq)) x2 y2
  subst e
  rw [← h3, ← g3]
  exact nested_inj x1 y1 k u

-- test: the texts of the engines for the filters 0, 0011 (nested) and 1
example : (newSplay toyEncoder toySub3).bind SNode.dump =
    some "--0(0 1) -> http://a\n  ok--011(1 3) -> http://b\n  ng--1(0 1) -> http://b\n".toList := by decide +kernel
example : (newPatricia toyEncoder toySub3).dump =
    "--(0 0) \n  --1(0 1) -> http://b\n  --0(0 1) -> http://a\n    --011(1 3) -> http://b\n".toList := by decide +kernel
example : (newList toyEncoder toySub3).dump =
    "--0(0 1) http://a\n--0011(0 4) http://b\n--1(0 1) http://b\n".toList := by decide +kernel
example : (linkSubset (toByteSubscriptions toyEncoder toySub3)).map BSub.dump =
    some "--0 0 http://a\n  --011 1 http://b\n--1 0 http://b\n".toList := by decide +kernel
-- the hypotheses hold for these subscriptions
example : TextSafe toyEncoder toySub3 := by
  have h : ∀ e ∈ toByteSubscriptions toyEncoder toySub3, IsBitStr e.1 ∧ '\n' ∉ e.2 := by decide +kernel
  exact fun k u hk => h (k, u) hk
example : toByteSubscriptions toyEncoder toySub3 ≠ [] := by decide +kernel
-- a newline in a URI makes two different Lists print the same text
example : let f := newFilter "0".toList 0
    let l : ListEngine := [(f, "a\n--0(0 1) b".toList)]
    let l' : ListEngine := [(f, "a".toList), (f, "b".toList)]
    l ≠ l' ∧ l.dump = l'.dump := by decide +kernel

end Gosstrak
