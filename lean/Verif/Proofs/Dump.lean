import Verif.Spec.Dump
import Verif.Model.Dump
import Verif.Proofs.Translate
import Verif.Proofs.Filter

/-! Reading text forms back. -/
namespace Gosstrak

/-- the first separator splits a text in one way -/
theorem split_at {c : Char} : ∀ {a a' r r' : Str}, c ∉ a → c ∉ a' → a ++ c :: r = a' ++ c :: r' → a = a' ∧ r = r'
  | [], [], _, _, _, _, h => ⟨rfl, by simpa using h⟩
  | [], d :: a', _, _, _, h2, h => by
    simp only [List.nil_append, List.cons_append, List.cons.injEq] at h
    exact absurd (by simp [h.1]) h2
  | d :: a, [], _, _, h1, _, h => by
    simp only [List.nil_append, List.cons_append, List.cons.injEq] at h
    exact absurd (by simp [h.1]) h1
  | d :: a, d' :: a', r, r', h1, h2, h => by
    simp only [List.cons_append, List.cons.injEq] at h
    obtain ⟨rfl, h⟩ := h
    obtain ⟨e1, e2⟩ := split_at (fun hx => h1 (by simp [hx])) (fun hx => h2 (by simp [hx])) h
    exact ⟨by rw [e1], e2⟩

theorem numeral_val_unique {n m : Nat} {s : Str} (h1 : Numeral n s) (h2 : Numeral m s) : n = m :=
  h1.2.2.1.symm.trans h2.2.2.1

theorem digits_not_mem {s : Str} (h : IsDigits s) {c : Char} (hc : ¬ ('0' ≤ c ∧ c ≤ '9')) : c ∉ s := fun hm => hc (h c hm)

theorem spaces_tag {tag tag' : Str} (h1 : ' ' ∉ tag) (h2 : ' ' ∉ tag') : ∀ {d d' : Nat},
    List.replicate d ' ' ++ tag = List.replicate d' ' ' ++ tag' → d = d' ∧ tag = tag'
  | 0, 0, h => ⟨rfl, by simpa using h⟩
  | 0, d' + 1, h => by
    simp only [List.replicate_zero, List.nil_append, List.replicate_succ, List.cons_append] at h
    exact absurd (by simp [h]) h1
  | d + 1, 0, h => by
    simp only [List.replicate_zero, List.nil_append, List.replicate_succ, List.cons_append] at h
    exact absurd (by simp [← h]) h2
  | d + 1, d' + 1, h => by
    simp only [List.replicate_succ, List.cons_append, List.cons.injEq, true_and] at h
    obtain ⟨e1, e2⟩ := spaces_tag h1 h2 h
    exact ⟨by rw [e1], e2⟩

theorem bitStr_not_mem {s : Str} (h : IsBitStr s) {c : Char} (h0 : c ≠ '0') (h1 : c ≠ '1') : c ∉ s := by
  intro hc
  rcases h c hc with rfl | rfl
  · exact h0 rfl
  · exact h1 rfl

theorem tag_not_mem {l : DumpLine} (h : l.Clean) {c : Char} (hc : c ∉ "okng".toList) : c ∉ l.tag :=
  fun hm => hc (h.2.2 c hm)

theorem says_unique {arrow : Bool} {l l' : DumpLine} {s : Str} (hl : l.Clean) (hl' : l'.Clean)
    (h : l.Says arrow s) (h' : l'.Says arrow s) : l = l' := by
  obtain ⟨so, ss, tail, n1, n2, t1, e⟩ := h
  obtain ⟨so', ss', tail', n1', n2', t1', e'⟩ := h'
  rw [e] at e'
  have e1 : ∀ (d : Nat) (tag str so ss tail : Str), List.replicate d ' ' ++ tag ++ "--".toList ++ str ++ "(".toList ++ so ++
      " ".toList ++ ss ++ ") ".toList ++ tail = (List.replicate d ' ' ++ tag) ++ '-' :: ('-' :: (str ++ '(' :: (so ++ ' ' ::
        (ss ++ ')' :: (' ' :: tail))))) := by
    intro d tag str so ss tail
    simp
  rw [e1, e1] at e'
  have nd : ∀ {l : DumpLine}, l.Clean → '-' ∉ List.replicate l.depth ' ' ++ l.tag := by
    intro l hl hx
    rcases List.mem_append.mp hx with hx | hx
    · have := List.eq_of_mem_replicate hx
      exact absurd this (by decide)
    · exact tag_not_mem hl (by decide) hx
  obtain ⟨p1, q1⟩ := split_at (nd hl) (nd hl') e'
  obtain ⟨pd, pt⟩ := spaces_tag (tag_not_mem hl (by decide)) (tag_not_mem hl' (by decide)) p1
  simp only [List.cons.injEq, true_and] at q1
  obtain ⟨p2, q2⟩ := split_at (bitStr_not_mem hl.1 (by decide) (by decide)) (bitStr_not_mem hl'.1 (by decide) (by decide)) q1
  obtain ⟨p3, q3⟩ := split_at (digits_not_mem n1.1 (by decide)) (digits_not_mem n1'.1 (by decide)) q2
  obtain ⟨p4, q4⟩ := split_at (digits_not_mem n2.1 (by decide)) (digits_not_mem n2'.1 (by decide)) q3
  simp only [List.cons.injEq, true_and] at q4
  subst p3; subst p4; subst q4
  have hu : l.uri = l'.uri := by
    cases arrow with
    | false => simp only [Bool.false_eq_true, if_false] at t1 t1'; rw [← t1, ← t1']
    | true =>
      simp only [if_true] at t1 t1'
      rcases t1 with ⟨a1, a2⟩ | ⟨a1, a2⟩ <;> rcases t1' with ⟨b1, b2⟩ | ⟨b1, b2⟩
      · rw [a1, b1]
      · rw [a2] at b2; simp at b2
      · rw [a2] at b2; simp at b2
      · rw [a2] at b2; exact List.append_cancel_left b2
  have ho := numeral_val_unique n1 n1'
  have hs := numeral_val_unique n2 n2'
  cases l; cases l'
  simp_all

theorem says_no_newline {arrow : Bool} {l : DumpLine} {s : Str} (hl : l.Clean) (h : l.Says arrow s) : '\n' ∉ s := by
  obtain ⟨so, ss, tail, n1, n2, t1, rfl⟩ := h
  have ht : '\n' ∉ tail := by
    cases arrow with
    | false => simp only [Bool.false_eq_true, if_false] at t1; rw [t1]; exact hl.2.1
    | true =>
      simp only [if_true] at t1
      rcases t1 with ⟨_, rfl⟩ | ⟨_, rfl⟩
      · simp
      · intro hx
        rcases List.mem_append.mp hx with hx | hx
        · exact absurd hx (by decide)
        · exact hl.2.1 hx
  have a1 := tag_not_mem hl (c := '\n') (by decide)
  have a2 := bitStr_not_mem hl.1 (c := '\n') (by decide) (by decide)
  have a3 := digits_not_mem n1.1 (c := '\n') (by decide)
  have a4 := digits_not_mem n2.1 (c := '\n') (by decide)
  simp [a1, a2, a3, a4, ht]

/-- a text says at most one list of lines -/
theorem textSays_unique {arrow : Bool} : ∀ {ls ls' : List DumpLine} {text : Str}, (∀ l ∈ ls, l.Clean) →
    (∀ l ∈ ls', l.Clean) → TextSays arrow ls text → TextSays arrow ls' text → ls = ls'
  | [], [], _, _, _, _, _ => rfl
  | [], l' :: ls', text, _, _, ⟨ss, h1, e1⟩, ⟨ss', h2, e2⟩ => by
    cases h1
    cases h2
    rw [e1] at e2
    simp at e2
  | l :: ls, [], text, _, _, ⟨ss, h1, e1⟩, ⟨ss', h2, e2⟩ => by
    cases h1
    cases h2
    rw [e2] at e1
    simp at e1
  | l :: ls, l' :: ls', text, c1, c2, ⟨ss, h1, e1⟩, ⟨ss', h2, e2⟩ => by
    cases h1 with
    | cons a1 a2 =>
      rename_i s ss
      cases h2 with
      | cons b1 b2 =>
        rename_i s' ss'
        rw [e1] at e2
        simp only [List.flatMap_cons, List.append_assoc, List.singleton_append] at e2
        obtain ⟨rfl, e3⟩ := split_at (says_no_newline (c1 l (by simp)) a1) (says_no_newline (c2 l' (by simp)) b1) e2
        rw [says_unique (c1 l (by simp)) (c2 l' (by simp)) a1 b1,
          textSays_unique (fun x hx => c1 x (by simp [hx])) (fun x hx => c2 x (by simp [hx])) ⟨ss, a2, rfl⟩ ⟨ss', b2, e3⟩]

theorem textSays_append {arrow : Bool} {ls ls' : List DumpLine} {t t' : Str} (h : TextSays arrow ls t)
    (h' : TextSays arrow ls' t') : TextSays arrow (ls ++ ls') (t ++ t') := by
  obtain ⟨ss, h1, rfl⟩ := h
  obtain ⟨ss', h2, rfl⟩ := h'
  exact ⟨ss ++ ss', List.rel_append h1 h2, by simp⟩

theorem textSays_nil (arrow : Bool) : TextSays arrow [] [] := ⟨[], .nil, rfl⟩

theorem says_node (d : Nat) (tag uri : Str) (f : FilterObject) :
    (nodeLine d tag uri f).Says true (List.replicate d ' ' ++ tag ++ ['-', '-'] ++ f.toStr ++ [' '] ++ reportText uri) := by
  refine ⟨decStr f.offset, decStr f.size, reportText uri, decStr_numeral _, decStr_numeral _, ?_, ?_⟩
  · simp only [if_true, nodeLine, reportText]
    cases uri <;> simp
  · simp [nodeLine, FilterObject.toStr]

theorem textSays_one {arrow : Bool} {l : DumpLine} {s : Str} (h : l.Says arrow s) : TextSays arrow [l] (s ++ ['\n']) :=
  ⟨[s], .cons h .nil, by simp⟩

/-! ### splay trees -/

theorem print_splay : ∀ (t : SNode) (d : Nat) (tag : Str), t ≠ .nil → (∀ n ∈ t.nodes, ∃ f, n.2 = some f) →
    ∃ text, t.print d = some text ∧ TextSays true (t.lines d tag) (List.replicate d ' ' ++ tag ++ text)
  | .nil, _, _, h, _ => absurd rfl h
  | .node u f m mm, d, tag, _, hall => by
    obtain ⟨f', rfl⟩ : ∃ f', f = some f' := hall (u, f) (by simp [SNode.nodes])
    have child : ∀ (t : SNode), (∀ n ∈ t.nodes, n ∈ (SNode.node u (some f') m mm).nodes) → (∀ d tag, t ≠ .nil →
        ∃ text, t.print d = some text ∧ TextSays true (t.lines d tag) (List.replicate d ' ' ++ tag ++ text)) →
        ∀ tag, ∃ text, (if t ≠ .nil then (t.print (d + 2)).map (List.replicate (d + 2) ' ' ++ tag ++ ·) else some []) =
          some text ∧ TextSays true (t.lines (d + 2) tag) text := by
      intro t _ ih tag
      by_cases ht : t = .nil
      · subst ht
        exact ⟨[], by simp, textSays_nil _⟩
      · obtain ⟨text, i1, i2⟩ := ih (d + 2) tag ht
        refine ⟨_, ?_, i2⟩
        rw [if_pos ht, i1]
        rfl
    obtain ⟨t1, i1, i2⟩ := child m (fun n hn => by simp [SNode.nodes, hn]) (fun d tag h => print_splay m d tag h fun n hn =>
      hall n (by simp [SNode.nodes, hn])) ['o', 'k']
    obtain ⟨t2, j1, j2⟩ := child mm (fun n hn => by simp [SNode.nodes, hn]) (fun d tag h => print_splay mm d tag h fun n hn =>
      hall n (by simp [SNode.nodes, hn])) ['n', 'g']
    refine ⟨_, by rw [SNode.print, i1, j1]; rfl, ?_⟩
    have := textSays_append (textSays_append (textSays_one (says_node d tag u f')) i2) j2
    simpa [SNode.lines] using this

theorem lines_clean : ∀ (t : SNode) (d : Nat) (tag : Str), (∀ n ∈ t.nodes, Printable n) → (∀ c ∈ tag, c ∈ "okng".toList) →
    ∀ l ∈ t.lines d tag, l.Clean
  | .nil, _, _, _, _, l, hl => by simp [SNode.lines] at hl
  | .node u f m mm, d, tag, hall, ht, l, hl => by
    obtain ⟨hu, f', hf, hb, -⟩ := hall (u, f) (by simp [SNode.nodes])
    dsimp only at hf hu
    subst hf
    simp only [SNode.lines, Option.map_some, Option.toList_some, List.mem_append, List.mem_singleton] at hl
    rcases hl with (rfl | hl) | hl
    · exact ⟨hb, hu, ht⟩
    · exact lines_clean m _ _ (fun n hn => hall n (by simp [SNode.nodes, hn])) (by decide) l hl
    · exact lines_clean mm _ _ (fun n hn => hall n (by simp [SNode.nodes, hn])) (by decide) l hl

/-- the lines end here for a subtree at depth `d` with this tag -/
def Ends (d : Nat) (tag : Str) (r : List DumpLine) : Prop := ∀ l, r.head? = some l → l.depth ≤ d ∧ (l.depth = d → l.tag ≠ tag)

theorem lines_head {t : SNode} {d : Nat} {tag : Str} (hp : ∀ n ∈ t.nodes, Printable n) (ht : t ≠ .nil) :
    ∃ l r, t.lines d tag = l :: r ∧ l.depth = d ∧ l.tag = tag := by
  cases t with
  | nil => exact absurd rfl ht
  | node u f m mm =>
    obtain ⟨-, f', hf, -⟩ := hp (u, f) (by simp [SNode.nodes])
    dsimp only at hf
    subst hf
    exact ⟨_, _, rfl, rfl, rfl⟩

theorem lines_inj : ∀ (t t' : SNode) (d : Nat) (tag : Str) (r r' : List DumpLine),
    (∀ n ∈ t.nodes, Printable n) → (∀ n ∈ t'.nodes, Printable n) → Ends d tag r → Ends d tag r' →
    t.lines d tag ++ r = t'.lines d tag ++ r' → t = t' ∧ r = r'
  | .nil, t', d, tag, r, r', _, hp', hr, hr', h => by
    by_cases ht : t' = .nil
    · subst ht
      exact ⟨rfl, by simpa [SNode.lines] using h⟩
    · obtain ⟨l, q, e, e1, e2⟩ := lines_head (d := d) (tag := tag) hp' ht
      rw [e] at h
      simp only [SNode.lines, List.nil_append, List.cons_append] at h
      exact absurd e2 ((hr l (by rw [h]; rfl)).2 e1)
  | .node u f m mm, t', d, tag, r, r', hp, hp', hr, hr', h => by
    cases t' with
    | nil =>
      obtain ⟨l, q, e, e1, e2⟩ := lines_head (d := d) (tag := tag) hp (by simp)
      rw [e] at h
      simp only [SNode.lines, List.nil_append, List.cons_append] at h
      exact absurd e2 ((hr' l (by rw [← h]; rfl)).2 e1)
    | node u' f' m' mm' =>
      obtain ⟨-, g, hg, -, hn⟩ := hp (u, f) (by simp [SNode.nodes])
      obtain ⟨-, g', hg', -, hn'⟩ := hp' (u', f') (by simp [SNode.nodes])
      dsimp only at hg hg'
      subst hg; subst hg'
      simp only [SNode.lines, Option.map_some, Option.toList_some, List.append_assoc] at h
      rw [List.singleton_append, List.singleton_append, List.cons.injEq] at h
      obtain ⟨h1, h2⟩ := h
      have ends : ∀ (mm : SNode) (r : List DumpLine), (∀ n ∈ mm.nodes, Printable n) → Ends d tag r →
          Ends (d + 2) "ok".toList (mm.lines (d + 2) "ng".toList ++ r) ∧ Ends (d + 2) "ng".toList r := by
        intro mm r hp hr
        have h2 : ∀ tag', Ends (d + 2) tag' r := by
          intro tag' l hl
          have := (hr l hl).1
          exact ⟨by omega, by omega⟩
        refine ⟨?_, h2 _⟩
        by_cases hmm : mm = .nil
        · subst hmm; exact h2 _
        · obtain ⟨l, q, e, e1, e2⟩ := lines_head (d := d + 2) (tag := "ng".toList) hp hmm
          rw [e]
          intro l' hl
          simp only [List.cons_append, List.head?_cons, Option.some.injEq] at hl
          subst hl
          exact ⟨by omega, fun _ => by rw [e2]; decide⟩
      obtain ⟨e1, e2⟩ := lines_inj m m' (d + 2) "ok".toList _ _ (fun n hn => hp n (by simp [SNode.nodes, hn]))
        (fun n hn => hp' n (by simp [SNode.nodes, hn]))
        (ends mm r (fun n hn => hp n (by simp [SNode.nodes, hn])) hr).1
        (ends mm' r' (fun n hn => hp' n (by simp [SNode.nodes, hn])) hr').1 h2
      obtain ⟨e3, e4⟩ := lines_inj mm mm' (d + 2) "ng".toList _ _ (fun n hn => hp n (by simp [SNode.nodes, hn]))
        (fun n hn => hp' n (by simp [SNode.nodes, hn]))
        (ends mm r (fun n hn => hp n (by simp [SNode.nodes, hn])) hr).2
        (ends mm' r' (fun n hn => hp' n (by simp [SNode.nodes, hn])) hr').2 e2
      simp only [nodeLine, DumpLine.mk.injEq, true_and] at h1
      obtain ⟨k1, k2, -, k4⟩ := h1
      have hgg : g = g' := by rw [hn, hn', k1, k2]
      subst hgg
      exact ⟨by rw [e1, e3, k4], e4⟩

/-! ### Patricia tries -/

theorem print_patricia : ∀ (t : PNode) (d : Nat), TextSays true (t.lines d) (t.print d)
  | .nil, _ => textSays_nil _
  | .node u f one zero, d => by
    have child : ∀ (t : PNode), TextSays true (t.lines (d + 2)) (t.print (d + 2)) →
        TextSays true (t.lines (d + 2)) (if t ≠ .nil then t.print (d + 2) else []) := by
      intro t h
      by_cases ht : t = .nil
      · subst ht; exact textSays_nil _
      · rw [if_pos ht]; exact h
    have := textSays_append (textSays_append (textSays_one (says_node d [] u f)) (child one (print_patricia one (d + 2))))
      (child zero (print_patricia zero (d + 2)))
    simpa [PNode.lines, PNode.print] using this

/-- the tag of a child by its first bit -/
def retag (l : DumpLine) : DumpLine := { l with tag := if l.str.head? = some '1' then "ok".toList else "ng".toList }

/-- a trie as a tree of nodes with two children -/
def PNode.asTree : PNode → SNode
  | .nil => .nil
  | .node u f one zero => .node u (some f) one.asTree zero.asTree

theorem asTree_nodes : ∀ t : PNode, t.asTree.nodes = t.nodes
  | .nil => rfl
  | .node u f one zero => by simp [PNode.asTree, SNode.nodes, PNode.nodes, asTree_nodes one, asTree_nodes zero]

theorem asTree_inj : ∀ {t t' : PNode}, t.asTree = t'.asTree → t = t'
  | .nil, .nil, _ => rfl
  | .nil, .node .., h => by simp [PNode.asTree] at h
  | .node .., .nil, h => by simp [PNode.asTree] at h
  | .node u f one zero, .node u' f' one' zero', h => by
    simp only [PNode.asTree, SNode.node.injEq, Option.some.injEq] at h
    obtain ⟨rfl, rfl, h1, h2⟩ := h
    rw [asTree_inj h1, asTree_inj h2]

theorem retag_lines : ∀ (t : PNode) (d : Nat) (b : Bool), t.BitBranches →
    (∀ u f o z, t = .node u f o z → f.str.head? = some (if b then '1' else '0')) →
    (t.lines d).map retag = t.asTree.lines d (if b then "ok".toList else "ng".toList)
  | .nil, _, _, _, _ => rfl
  | .node u f one zero, d, b, ⟨h1, h2, h3, h4⟩, hb => by
    have i1 := retag_lines one (d + 2) true h3 (fun u f o z e => h1 u f o z e)
    have i2 := retag_lines zero (d + 2) false h4 (fun u f o z e => h2 u f o z e)
    have hf := hb u f one zero rfl
    simp only [PNode.lines, List.map_cons, List.map_append, i1, i2, PNode.asTree, SNode.lines]
    simp only [if_true, Bool.false_eq_true, if_false, Option.map_some, Option.toList_some,
      List.cons_append, List.cons.injEq, List.append_assoc]
    simp only [retag, nodeLine, hf]
    cases b <;> simp

theorem plines_inj (t t' : PNode) (d : Nat) (hp : ∀ n ∈ t.nodes, Printable n) (hp' : ∀ n ∈ t'.nodes, Printable n)
    (hb : t.BitBranches) (hb' : t'.BitBranches) (h : t.lines d = t'.lines d) : t = t' := by
  cases t with
  | nil => cases t' <;> simp [PNode.lines] at h ⊢
  | node u f one zero =>
    cases t' with
    | nil => simp [PNode.lines] at h
    | node u' f' one' zero' =>
      simp only [PNode.lines, List.cons.injEq] at h
      obtain ⟨h1, h2⟩ := h
      have h3 := congrArg (List.map retag) h2
      simp only [List.map_append] at h3
      rw [retag_lines one _ true hb.2.2.1 hb.1, retag_lines zero _ false hb.2.2.2 hb.2.1,
        retag_lines one' _ true hb'.2.2.1 hb'.1, retag_lines zero' _ false hb'.2.2.2 hb'.2.1] at h3
      have p1 : ∀ n ∈ one.asTree.nodes, Printable n := fun n hn => hp n (by rw [asTree_nodes] at hn; simp [PNode.nodes, hn])
      have p2 : ∀ n ∈ zero.asTree.nodes, Printable n := fun n hn => hp n (by rw [asTree_nodes] at hn; simp [PNode.nodes, hn])
      have p3 : ∀ n ∈ one'.asTree.nodes, Printable n := fun n hn => hp' n (by rw [asTree_nodes] at hn; simp [PNode.nodes, hn])
      have p4 : ∀ n ∈ zero'.asTree.nodes, Printable n := fun n hn => hp' n (by rw [asTree_nodes] at hn; simp [PNode.nodes, hn])
      have ends : ∀ (t : SNode), (∀ n ∈ t.nodes, Printable n) → Ends (d + 2) "ok".toList (t.lines (d + 2) "ng".toList) := by
        intro t hp l hl
        by_cases ht : t = .nil
        · subst ht; simp [SNode.lines] at hl
        · obtain ⟨l', q, e, e1, e2⟩ := lines_head (d := d + 2) (tag := "ng".toList) hp ht
          rw [e] at hl
          simp only [List.head?_cons, Option.some.injEq] at hl
          subst hl
          exact ⟨by omega, fun _ => by rw [e2]; decide⟩
      simp only [if_true, Bool.false_eq_true, if_false] at h3
      obtain ⟨e1, e2⟩ := lines_inj one.asTree one'.asTree (d + 2) "ok".toList _ _ p1 p3 (ends _ p2) (ends _ p4) h3
      obtain ⟨e3, -⟩ := lines_inj zero.asTree zero'.asTree (d + 2) "ng".toList [] [] p2 p4 (by simp [Ends]) (by simp [Ends])
        (by simpa using e2)
      obtain ⟨-, g, hg, -, hn⟩ := hp (u, some f) (by simp [PNode.nodes])
      obtain ⟨-, g', hg', -, hn'⟩ := hp' (u', some f') (by simp [PNode.nodes])
      cases hg; cases hg'
      simp only [nodeLine, DumpLine.mk.injEq, true_and] at h1
      obtain ⟨k1, k2, -, k4⟩ := h1
      have hff : f = f' := by rw [hn, hn', k1, k2]
      rw [asTree_inj e1, asTree_inj e3, k4, hff]

theorem plines_clean : ∀ (t : PNode) (d : Nat), (∀ n ∈ t.nodes, Printable n) → ∀ l ∈ t.lines d, l.Clean
  | .nil, _, _, l, hl => by simp [PNode.lines] at hl
  | .node u f one zero, d, hall, l, hl => by
    obtain ⟨hu, f', hf, hb, -⟩ := hall (u, some f) (by simp [PNode.nodes])
    cases hf
    simp only [PNode.lines, List.mem_cons, List.mem_append] at hl
    rcases hl with rfl | hl | hl
    · exact ⟨hb, hu, by simp [nodeLine]⟩
    · exact plines_clean one _ (fun n hn => hall n (by simp [PNode.nodes, hn])) l hl
    · exact plines_clean zero _ (fun n hn => hall n (by simp [PNode.nodes, hn])) l hl

end Gosstrak
