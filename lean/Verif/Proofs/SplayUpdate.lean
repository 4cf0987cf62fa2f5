import Verif.Proofs.Splay
import Verif.Proofs.PatriciaStore
import Verif.Spec.Splay

/-! Restructuring by searches, `add` and `delete` on splay trees. -/
namespace Gosstrak

open SNode

/-! ### searches keep every node -/

namespace SNode

/-- nodes of detached nodes -/
def liftedNodes (l : List (Str × Option FilterObject × SNode)) : List (Str × Option FilterObject) :=
  l.flatMap fun n => (n.1, n.2.1) :: nodes n.2.2

end SNode

theorem splaySearch_nodes (id : List Byte) : ∀ (t : SNode) (first : Bool) (ms : List Str) (rest : SNode)
    (lifted : List (Str × Option FilterObject × SNode)),
    t.splaySearch first id = some (ms, rest, lifted) → (liftedNodes lifted ++ nodes rest).Perm (nodes t)
  | .nil, _, _, _, _, h => by simp [splaySearch] at h
  | .node _ none _ _, _, _, _, _, h => by simp [splaySearch] at h
  | .node u (some f) m mm, first, ms, rest, lifted, h => by
    rw [splaySearch] at h
    cases hm : f.matchID id with
    | none => rw [hm] at h; simp at h
    | some b =>
      rw [hm] at h
      cases b with
      | true =>
        simp only at h
        -- the nested search
        have hsub : ∃ ms' m' l', (if m = .nil then some ([], .nil, []) else m.splaySearch true id) =
            some (ms', m', l') ∧ (liftedNodes l' ++ nodes m').Perm (nodes m) := by
          by_cases hmn : m = .nil
          · subst hmn; exact ⟨[], .nil, [], rfl, by simp [liftedNodes, nodes]⟩
          · rw [if_neg hmn] at h ⊢
            cases hs : m.splaySearch true id with
            | none => rw [hs] at h; simp at h
            | some r =>
              obtain ⟨ms', m', l'⟩ := r
              exact ⟨ms', m', l', rfl, splaySearch_nodes id m true _ _ _ hs⟩
        obtain ⟨ms', m', l', hs, hp⟩ := hsub
        rw [hs] at h
        simp only at h
        cases first with
        | true =>
          simp only [if_true, Option.some.injEq, Prod.mk.injEq] at h
          obtain ⟨-, rfl, rfl⟩ := h
          simp only [nodes]
          refine (List.perm_middle).trans (List.Perm.cons _ ?_)
          rw [← List.append_assoc]
          exact hp.append_right _
        | false =>
          simp only [Bool.false_eq_true, if_false, Option.some.injEq, Prod.mk.injEq] at h
          obtain ⟨-, rfl, rfl⟩ := h
          have : liftedNodes (l' ++ [(u, some f, m')]) = liftedNodes l' ++ ((u, some f) :: nodes m') := by
            simp [liftedNodes]
          rw [this]
          simp only [nodes, List.append_assoc, List.cons_append]
          refine (List.perm_middle).trans (List.Perm.cons _ ?_)
          rw [← List.append_assoc]
          exact hp.append_right _
      | false =>
        simp only at h
        by_cases hmn : mm = .nil
        · rw [if_pos hmn] at h
          simp only [Option.some.injEq, Prod.mk.injEq] at h
          obtain ⟨-, rfl, rfl⟩ := h
          simp [liftedNodes]
        · rw [if_neg hmn] at h
          cases hs : mm.splaySearch false id with
          | none => rw [hs] at h; simp at h
          | some r =>
            obtain ⟨ms', mm', l'⟩ := r
            rw [hs] at h
            simp only [Option.some.injEq, Prod.mk.injEq] at h
            obtain ⟨-, rfl, rfl⟩ := h
            have ih := splaySearch_nodes id mm false _ _ _ hs
            simp only [nodes]
            refine (List.perm_middle).trans (List.Perm.cons _ ?_)
            refine List.Perm.trans ?_ (ih.append_left _)
            rw [← List.append_assoc, ← List.append_assoc]
            exact List.perm_append_comm.append_right _

theorem attach_nodes : ∀ (l : List (Str × Option FilterObject × SNode)) (t : SNode),
    (nodes (l.foldl attach t)).Perm (liftedNodes l ++ nodes t)
  | [], t => by simp [liftedNodes]
  | n :: l, t => by
    rw [List.foldl_cons]
    refine (attach_nodes l _).trans ?_
    have : liftedNodes (n :: l) = ((n.1, n.2.1) :: nodes n.2.2) ++ liftedNodes l := by
      simp [liftedNodes]
    rw [this]
    simp only [attach, nodes]
    have h2 : (n.1, n.2.1) :: (nodes n.2.2 ++ nodes t) = ((n.1, n.2.1) :: nodes n.2.2) ++ nodes t := rfl
    rw [h2, ← List.append_assoc]
    exact List.perm_append_comm.append_right _

theorem search_nodes {t t' : SNode} {id : List Byte} {ms : List Str}
    (h : t.search id = some (ms, t')) : (nodes t').Perm (nodes t) := by
  unfold SNode.search at h
  cases hs : t.splaySearch true id with
  | none => rw [hs] at h; simp at h
  | some r =>
    obtain ⟨ms', r', l'⟩ := r
    rw [hs] at h
    simp only [Option.some.injEq, Prod.mk.injEq] at h
    obtain ⟨-, rfl⟩ := h
    exact (attach_nodes l' r').trans (splaySearch_nodes id t true _ _ _ hs)

/-- a search panics only if some filter cannot be matched against the ID -/
theorem splaySearch_no_panic (id : List Byte) : ∀ (t : SNode) (first : Bool), t ≠ .nil →
    (∀ n ∈ nodes t, ∃ f b, n.2 = some f ∧ f.matchID id = some b) →
    ∃ r, t.splaySearch first id = some r
  | .nil, _, h, _ => absurd rfl h
  | .node u f m mm, first, _, hall => by
    obtain ⟨f', b, hf, hb⟩ := hall (u, f) (by simp [nodes])
    simp only at hf
    subst hf
    rw [splaySearch, hb]
    cases b with
    | true =>
      simp only
      by_cases hmn : m = .nil
      · simp only [hmn, if_true]
        cases first <;> exact ⟨_, rfl⟩
      · obtain ⟨r, hr⟩ := splaySearch_no_panic id m true hmn fun n hn => hall n (by simp [nodes, hn])
        obtain ⟨a, b, c⟩ := r
        simp only [hmn, if_false, hr]
        cases first <;> exact ⟨_, rfl⟩
    | false =>
      simp only
      by_cases hmn : mm = .nil
      · simp only [hmn, if_true]; exact ⟨_, rfl⟩
      · obtain ⟨r, hr⟩ := splaySearch_no_panic id mm false hmn fun n hn => hall n (by simp [nodes, hn])
        obtain ⟨a, b, c⟩ := r
        simp only [hmn, if_false, hr]; exact ⟨_, rfl⟩

/-! ### searches in trees whose nested chains have one node -/

namespace SNode

/-- `mismatchNext` is nil -/
def Single : SNode → Prop
  | .nil => True
  | .node _ _ _ mm => mm = .nil

/-- every nested chain has one node -/
def NestedThin : SNode → Prop
  | .nil => True
  | .node _ _ m mm => Single m ∧ NestedThin m ∧ NestedThin mm

end SNode

theorem single_search (id : List Byte) : ∀ (t : SNode) (ms : List Str) (rest : SNode)
    (lifted : List (Str × Option FilterObject × SNode)), Single t → NestedThin t →
    t.splaySearch true id = some (ms, rest, lifted) → rest = t ∧ lifted = []
  | .nil, _, _, _, _, _, h => by simp [splaySearch] at h
  | .node _ none _ _, _, _, _, _, _, h => by simp [splaySearch] at h
  | .node u (some f) m mm, ms, rest, lifted, hs, ⟨hsm, htm, _⟩, h => by
    simp only [Single] at hs
    subst hs
    rw [splaySearch] at h
    cases hm : f.matchID id with
    | none => rw [hm] at h; simp at h
    | some b =>
      rw [hm] at h
      cases b with
      | true =>
        simp only at h
        by_cases hmn : m = .nil
        · subst hmn
          simp only [if_true, Option.some.injEq, Prod.mk.injEq] at h
          exact ⟨h.2.1.symm, h.2.2.symm⟩
        · rw [if_neg hmn] at h
          cases hx : m.splaySearch true id with
          | none => rw [hx] at h; simp at h
          | some r =>
            obtain ⟨ms', m', l'⟩ := r
            rw [hx] at h
            obtain ⟨rfl, rfl⟩ := single_search id m _ _ _ hsm htm hx
            simp only [if_true, Option.some.injEq, Prod.mk.injEq] at h
            exact ⟨h.2.1.symm, h.2.2.symm⟩
      | false =>
        simp only [if_true, Option.some.injEq, Prod.mk.injEq] at h
        exact ⟨h.2.1.symm, h.2.2.symm⟩

/-- on the top chain at most the matching node moves to the front -/
theorem thin_search (id : List Byte) : ∀ (t : SNode) (P : Str) (first : Bool) (ms : List Str) (rest : SNode)
    (lifted : List (Str × Option FilterObject × SNode)), WF P t → NestedThin t →
    t.splaySearch first id = some (ms, rest, lifted) →
    (rest = t ∧ lifted = []) ∨
    (∃ u f m, lifted = [(u, some f, m)] ∧ WF P (.node u (some f) m rest) ∧
      (content P (.node u (some f) m rest)).Perm (content P t) ∧
      (chain (.node u (some f) m rest)).Perm (chain t) ∧ NestedThin (.node u (some f) m rest))
  | .nil, _, _, _, _, _, _, _, h => by simp [splaySearch] at h
  | .node _ none _ _, _, _, _, _, _, _, _, h => by simp [splaySearch] at h
  | .node u (some f) m mm, P, first, ms, rest, lifted, ⟨hbit, hf, ha, hn, hwm, hwmm⟩, ⟨hsm, htm, htmm⟩, h => by
    rw [splaySearch] at h
    cases hm : f.matchID id with
    | none => rw [hm] at h; simp at h
    | some b =>
      rw [hm] at h
      cases b with
      | true =>
        simp only at h
        have hsub : ∃ ms', (if m = .nil then some ([], .nil, []) else m.splaySearch true id) =
            some (ms', m, []) := by
          by_cases hmn : m = .nil
          · exact ⟨[], by simp [hmn]⟩
          · rw [if_neg hmn] at h ⊢
            cases hx : m.splaySearch true id with
            | none => rw [hx] at h; simp at h
            | some r =>
              obtain ⟨ms', m', l'⟩ := r
              obtain ⟨rfl, rfl⟩ := single_search id m _ _ _ hsm htm hx
              exact ⟨ms', rfl⟩
        obtain ⟨ms', hs⟩ := hsub
        rw [hs] at h
        cases first with
        | true =>
          simp only [if_true, Option.some.injEq, Prod.mk.injEq] at h
          exact Or.inl ⟨h.2.1.symm, h.2.2.symm⟩
        | false =>
          simp only [Bool.false_eq_true, if_false, Option.some.injEq, Prod.mk.injEq, List.nil_append] at h
          obtain ⟨-, rfl, rfl⟩ := h
          exact Or.inr ⟨u, f, m, rfl, ⟨hbit, hf, ha, hn, hwm, hwmm⟩, List.Perm.refl _, List.Perm.refl _,
            ⟨hsm, htm, htmm⟩⟩
      | false =>
        simp only at h
        by_cases hmn : mm = .nil
        · rw [if_pos hmn] at h
          simp only [Option.some.injEq, Prod.mk.injEq] at h
          exact Or.inl ⟨h.2.1.symm, h.2.2.symm⟩
        · rw [if_neg hmn] at h
          cases hx : mm.splaySearch false id with
          | none => rw [hx] at h; simp at h
          | some r =>
            obtain ⟨ms', mm', l'⟩ := r
            rw [hx] at h
            simp only [Option.some.injEq, Prod.mk.injEq] at h
            obtain ⟨-, rfl, rfl⟩ := h
            rcases thin_search id mm P false _ _ _ hwmm htmm hx with ⟨rfl, rfl⟩ |
              ⟨u', f', m'', rfl, ⟨g1, g2, g3, g4, g5, g6⟩, hc, hch, ⟨k1, k2, k3⟩⟩
            · exact Or.inl ⟨rfl, rfl⟩
            · right
              have hmem : ∀ k, k ∈ chain mm ↔ k = f'.str ∨ k ∈ chain mm' := by
                intro k
                rw [← hch.mem_iff]
                simp [chain]
              refine ⟨u', f', m'', rfl, ⟨g1, g2, ?_, g4, g5, hbit, hf, ?_, hn, hwm, g6⟩, ?_, ?_,
                k1, k2, hsm, htm, k3⟩
              · intro k hk
                simp only [chain, List.mem_cons] at hk
                rcases hk with rfl | hk
                · have := ha f'.str ((hmem _).mpr (Or.inl rfl))
                  exact ⟨this.2, this.1⟩
                · exact g3 k hk
              · intro k hk
                exact ha k ((hmem k).mpr (Or.inr hk))
              · -- content
                simp only [content] at hc ⊢
                refine List.Perm.trans ?_ (((hc.append_left (content (P ++ f.str) m)).cons _))
                refine List.Perm.trans ?_ (List.Perm.cons _ (List.perm_middle.symm))
                refine List.Perm.trans ?_ (List.Perm.swap _ _ _)
                refine List.Perm.cons _ ?_
                refine List.Perm.trans List.perm_middle ?_
                refine List.Perm.cons _ ?_
                rw [← List.append_assoc, ← List.append_assoc]
                exact List.perm_append_comm.append_right _
              · simp only [chain] at hch ⊢
                exact (List.Perm.swap _ _ _).trans (hch.cons _)

theorem thin_search_tree {t t' : SNode} {id : List Byte} {ms : List Str} (hw : WF [] t)
    (ht : NestedThin t) (h : t.search id = some (ms, t')) :
    t' ≠ .nil ∧ WF [] t' ∧ NestedThin t' ∧ (content [] t').Perm (content [] t) := by
  have htn : t ≠ .nil := by
    rintro rfl; simp [SNode.search, splaySearch] at h
  unfold SNode.search at h
  cases hs : t.splaySearch true id with
  | none => rw [hs] at h; simp at h
  | some r =>
    obtain ⟨ms', r', l'⟩ := r
    rw [hs] at h
    simp only [Option.some.injEq, Prod.mk.injEq] at h
    obtain ⟨-, rfl⟩ := h
    rcases thin_search id t [] true _ _ _ hw ht hs with ⟨rfl, rfl⟩ | ⟨u, f, m, rfl, h1, h2, -, h3⟩
    · exact ⟨htn, hw, ht, List.Perm.refl _⟩
    · exact ⟨by simp [attach], h1, h3, h2⟩

/-- nested chains have one node if the extensions of every stored filter are comparable -/
theorem thin_of_content : ∀ (t : SNode) (P : Str), WF P t →
    (∀ k a b u v w, (k, u) ∈ content P t → (a, v) ∈ content P t → (b, w) ∈ content P t →
      PProper k a → PProper k b → a <+: b ∨ b <+: a) → NestedThin t
  | .nil, _, _, _ => trivial
  | .node _ none _ _, _, h, _ => h.elim
  | .node u (some f) m mm, P, ⟨hbit, hf, ha, hn, hwm, hwmm⟩, hc => by
    refine ⟨?_, thin_of_content m _ hwm ?_, thin_of_content mm _ hwmm ?_⟩
    · cases m with
      | nil => trivial
      | node u1 f1 m1 mm1 =>
        cases f1 with
        | none => exact hwm.elim
        | some f1 =>
          simp only [Single]
          cases mm1 with
          | nil => rfl
          | node u2 f2 m2 mm2 =>
            exfalso
            obtain ⟨c1, c2, c3, c4, c5, c6⟩ := hwm
            cases f2 with
            | none => exact c6.elim
            | some f2 =>
              have hpp : ∀ s : Str, s ≠ [] → PProper (P ++ f.str) (P ++ f.str ++ s) := by
                intro s hs
                refine ⟨List.prefix_append _ _, ?_⟩
                intro h
                exact hs (List.self_eq_append_right.mp h)
              have h1 := hn f1.str (by simp [chain])
              have h2 := hn f2.str (by simp [chain])
              have h3 := c3 f2.str (by simp [chain])
              rcases hc (P ++ f.str) (P ++ f.str ++ f1.str) (P ++ f.str ++ f2.str) u u1 u2
                (by simp [content]) (by simp [content]) (by simp [content]) (hpp _ h1) (hpp _ h2) with h | h
              · exact h3.1 ((List.prefix_append_right_inj _).mp h)
              · exact h3.2 ((List.prefix_append_right_inj _).mp h)
    · intro k a b u' v w h1 h2 h3
      exact hc k a b u' v w (by simp [content, h1]) (by simp [content, h2]) (by simp [content, h3])
    · intro k a b u' v w h1 h2 h3
      exact hc k a b u' v w (by simp [content, h1]) (by simp [content, h2]) (by simp [content, h3])

/-! ### add -/

theorem proper_append {A s : Str} (hs : s ≠ []) : Extends A (A ++ s) :=
  ⟨List.prefix_append _ _, fun h => hs (List.self_eq_append_right.mp h)⟩

theorem Extends.append {A B : Str} (h : Extends A B) : ∃ s, s ≠ [] ∧ B = A ++ s := by
  obtain ⟨⟨s, rfl⟩, hn⟩ := h
  exact ⟨s, fun h0 => hn (by simp [h0]), rfl⟩

theorem mem_scontent {P u : Str} {f : FilterObject} {m mm : SNode} {k v : Str} :
    (k, v) ∈ content P (.node u (some f) m mm) ↔
      (k = P ++ f.str ∧ v = u) ∨ (k, v) ∈ content (P ++ f.str) m ∨ (k, v) ∈ content P mm := by
  rw [content, List.mem_cons, List.mem_append, Prod.mk.injEq]

/-- keys below a node properly extend it -/
theorem scontent_below {Q : Str} {m : SNode} (hn : ∀ k ∈ chain m, k ≠ []) {e : Str × Str}
    (he : e ∈ content Q m) : Extends Q e.1 := by
  obtain ⟨k, hk, hp⟩ := scontent_chain m Q e he
  refine ⟨(List.prefix_append _ _).trans hp, ?_⟩
  intro h
  have h1 := hp.length_le
  rw [← h, List.length_append] at h1
  have := List.length_pos_iff.mpr (hn k hk)
  omega

/-- keys of the rest of the chain are incomparable with the head -/
theorem scontent_rest {P s : Str} {mm : SNode} (ha : ∀ k ∈ chain mm, ¬ s <+: k ∧ ¬ k <+: s)
    {e : Str × Str} (he : e ∈ content P mm) : ¬ P ++ s <+: e.1 ∧ ¬ e.1 <+: P ++ s := by
  obtain ⟨k, hk, hp⟩ := scontent_chain mm P e he
  constructor
  · intro h
    rcases prefix_or_prefix h hp with h | h
    · exact (ha k hk).1 ((List.prefix_append_right_inj P).mp h)
    · exact (ha k hk).2 ((List.prefix_append_right_inj P).mp h)
  · intro h
    exact (ha k hk).2 ((List.prefix_append_right_inj P).mp (hp.trans h))

theorem size_of_wf {f : FilterObject} {n : Nat} (h : f = newFilter f.str n) :
    f.size = f.str.length ∧ f.offset = n := by
  constructor
  · rw [h]; simp [newFilter]
  · rw [h]; rfl

theorem sadd_spec (uri : Str) : ∀ (t : SNode) (P fs : Str), t ≠ .nil → WF P t → IsBitStr fs →
    ((∃ v, (P ++ fs, v) ∈ content P t) ∨ ∀ e ∈ content P t, ¬ P ++ fs <+: e.1) →
    ∃ t', t.add fs uri = some t' ∧ t' ≠ .nil ∧ WF P t' ∧
      (∀ k u, (k, u) ∈ content P t' ↔
        (k = P ++ fs ∧ u = uri) ∨ (k ≠ P ++ fs ∧ (k, u) ∈ content P t)) ∧
      (chain t' = chain t ∨
        (chain t' = chain t ++ [fs] ∧ ∀ k ∈ chain t, ¬ k <+: fs ∧ ¬ fs <+: k))
  | .nil, _, _, h, _, _, _ => absurd rfl h
  | .node _ none _ _, _, _, _, h, _, _ => h.elim
  | .node u (some f) m mm, P, fs, _, ⟨hbit, hf, ha, hn, hwm, hwmm⟩, hfs, hsafe => by
    obtain ⟨hsz, hoff⟩ := size_of_wf hf
    have hmbelow : ∀ e ∈ content (P ++ f.str) m, Extends (P ++ f.str) e.1 :=
      fun e he => scontent_below hn he
    have hrest : ∀ e ∈ content P mm, ¬ P ++ f.str <+: e.1 ∧ ¬ e.1 <+: P ++ f.str :=
      fun e he => scontent_rest ha he
    rw [SNode.add]
    by_cases hpre : f.str <+: fs
    · rw [if_pos ((hasPrefix_iff _ _).mpr hpre)]
      by_cases heq : fs = f.str
      · rw [if_pos heq]
        have hu : (if u ≠ uri then uri else u) = uri := by
          by_cases h : u = uri <;> simp [h]
        rw [hu]
        refine ⟨_, rfl, by simp, ⟨hbit, hf, ha, hn, hwm, hwmm⟩, ?_, Or.inl rfl⟩
        intro k v
        subst heq
        simp only [content, List.mem_cons, List.mem_append, Prod.mk.injEq]
        constructor
        · rintro (h | h | h)
          · exact Or.inl h
          · exact Or.inr ⟨(hmbelow _ h).2.symm, Or.inr (Or.inl h)⟩
          · refine Or.inr ⟨?_, Or.inr (Or.inr h)⟩
            rintro rfl
            exact (hrest _ h).1 List.prefix_rfl
        · rintro (h | ⟨hne, ⟨rfl, -⟩ | h | h⟩)
          · exact Or.inl h
          · exact absurd rfl hne
          · exact Or.inr (Or.inl h)
          · exact Or.inr (Or.inr h)
      · rw [if_neg heq]
        obtain ⟨r, rfl⟩ := hpre
        have hr : r ≠ [] := by rintro rfl; simp at heq
        have hdrop : (f.str ++ r).drop f.size = r := by rw [hsz, List.drop_left]
        rw [hdrop]
        have hnot : ∀ v, (P ++ (f.str ++ r), v) ∉ content P mm := by
          intro v hv
          exact (hrest _ hv).1 (by rw [← List.append_assoc]; exact List.prefix_append _ _)
        by_cases hmn : m = .nil
        · subst hmn
          rw [if_pos rfl]
          refine ⟨_, rfl, by simp, ⟨hbit, hf, ha, ?_, ?_, hwmm⟩, ?_, Or.inl rfl⟩
          · simp [chain, newFilter_str, hr]
          · refine ⟨?_, ?_, by simp [chain], by simp [chain], trivial, trivial⟩
            · rw [newFilter_str]; exact hfs.of_append_right
            · rw [newFilter_str, hsz, hoff, List.length_append]
          · intro k v
            simp only [content, newFilter_str, List.mem_cons, List.mem_append, Prod.mk.injEq,
              List.not_mem_nil, or_false, false_or, List.append_assoc]
            constructor
            · rintro (⟨rfl, rfl⟩ | h | h)
              · exact Or.inr ⟨by simp [hr], Or.inl ⟨rfl, rfl⟩⟩
              · exact Or.inl h
              · refine Or.inr ⟨?_, Or.inr h⟩
                rintro rfl; exact hnot v h
            · rintro (h | ⟨hne, h | h⟩)
              · exact Or.inr (Or.inl h)
              · exact Or.inl h
              · exact Or.inr (Or.inr h)
        · rw [if_neg hmn]
          have hsafe' : (∃ v, (P ++ f.str ++ r, v) ∈ content (P ++ f.str) m) ∨
              ∀ e ∈ content (P ++ f.str) m, ¬ P ++ f.str ++ r <+: e.1 := by
            rcases hsafe with ⟨v, hv⟩ | h
            · left
              refine ⟨v, ?_⟩
              simp only [content, List.mem_cons, List.mem_append, Prod.mk.injEq] at hv
              rcases hv with ⟨h, -⟩ | h | h
              · simp [hr] at h
              · rw [List.append_assoc]; exact h
              · exact absurd h (hnot v)
            · right
              intro e he
              rw [List.append_assoc]
              exact h e (by simp [content, he])
          obtain ⟨m', i1, i2, i3, i4, i5⟩ := sadd_spec uri m (P ++ f.str) r hmn hwm
            hfs.of_append_right hsafe'
          rw [i1]
          refine ⟨_, rfl, by simp, ⟨hbit, hf, ha, ?_, i3, hwmm⟩, ?_, Or.inl rfl⟩
          · rcases i5 with h | ⟨h, -⟩
            · rw [h]; exact hn
            · intro k hk
              rw [h, List.mem_append] at hk
              rcases hk with hk | hk
              · exact hn k hk
              · simp at hk; rw [hk]; exact hr
          · intro k v
            simp only [content, List.mem_cons, List.mem_append, Prod.mk.injEq, i4, List.append_assoc]
            constructor
            · rintro (⟨rfl, rfl⟩ | (h | ⟨h1, h2⟩) | h)
              · exact Or.inr ⟨by simp [hr], Or.inl ⟨rfl, rfl⟩⟩
              · exact Or.inl h
              · exact Or.inr ⟨h1, Or.inr (Or.inl h2)⟩
              · refine Or.inr ⟨?_, Or.inr (Or.inr h)⟩
                rintro rfl; exact hnot v h
            · rintro (h | ⟨hne, h | h | h⟩)
              · exact Or.inr (Or.inl (Or.inl h))
              · exact Or.inl h
              · exact Or.inr (Or.inl (Or.inr ⟨hne, h⟩))
              · exact Or.inr (Or.inr h)
    · rw [if_neg (fun h => hpre ((hasPrefix_iff _ _).mp h))]
      -- the new filter is incomparable with the head
      have hnotm : ∀ v, (P ++ fs, v) ∉ content (P ++ f.str) m := by
        intro v hv
        exact hpre ((List.prefix_append_right_inj P).mp (hmbelow _ hv).1)
      have hne0 : fs ≠ f.str := fun h => hpre (h ▸ List.prefix_rfl)
      have hsafe' : (∃ v, (P ++ fs, v) ∈ content P mm) ∨ ∀ e ∈ content P mm, ¬ P ++ fs <+: e.1 := by
        rcases hsafe with ⟨v, hv⟩ | h
        · left
          refine ⟨v, ?_⟩
          simp only [content, List.mem_cons, List.mem_append, Prod.mk.injEq] at hv
          rcases hv with ⟨h, -⟩ | h | h
          · exact absurd (List.append_cancel_left h) hne0
          · exact absurd h (hnotm v)
          · exact h
        · exact Or.inr fun e he => h e (by simp [content, he])
      have hinc : ¬ fs <+: f.str := by
        intro hle
        rcases hsafe with ⟨v, hv⟩ | h
        · simp only [content, List.mem_cons, List.mem_append, Prod.mk.injEq] at hv
          rcases hv with ⟨h, -⟩ | h | h
          · exact hne0 (List.append_cancel_left h)
          · exact hnotm v h
          · exact (hrest _ h).2 ((List.prefix_append_right_inj P).mpr hle)
        · exact h (P ++ f.str, u) (by simp [content]) ((List.prefix_append_right_inj P).mpr hle)
      by_cases hmn : mm = .nil
      · subst hmn
        rw [if_pos rfl]
        refine ⟨_, rfl, by simp, ⟨hbit, hf, ?_, hn, hwm, ?_⟩, ?_, Or.inr ⟨?_, ?_⟩⟩
        · simp only [chain, newFilter_str, List.mem_singleton]
          rintro k rfl
          exact ⟨hpre, hinc⟩
        · refine ⟨?_, ?_, by simp [chain], by simp [chain], trivial, trivial⟩
          · rw [newFilter_str]; exact hfs
          · rw [newFilter_str, hoff]
        · intro k v
          simp only [content, newFilter_str, List.mem_cons, List.mem_append, Prod.mk.injEq,
            List.not_mem_nil, or_false, List.append_nil]
          constructor
          · rintro (⟨rfl, rfl⟩ | h | h)
            · exact Or.inr ⟨fun h => hne0 (List.append_cancel_left h).symm, Or.inl ⟨rfl, rfl⟩⟩
            · refine Or.inr ⟨?_, Or.inr h⟩
              rintro rfl; exact hnotm v h
            · exact Or.inl h
          · rintro (h | ⟨hne, h | h⟩)
            · exact Or.inr (Or.inr h)
            · exact Or.inl h
            · exact Or.inr (Or.inl h)
        · simp [chain, newFilter_str]
        · simp only [chain, List.mem_singleton]
          rintro k rfl
          exact ⟨hpre, hinc⟩
      · rw [if_neg hmn]
        obtain ⟨mm', i1, i2, i3, i4, i5⟩ := sadd_spec uri mm P fs hmn hwmm hfs hsafe'
        rw [i1]
        refine ⟨_, rfl, by simp, ⟨hbit, hf, ?_, hn, hwm, i3⟩, ?_, ?_⟩
        · intro k hk
          rcases i5 with h | ⟨h, -⟩
          · rw [h] at hk; exact ha k hk
          · rw [h, List.mem_append] at hk
            rcases hk with hk | hk
            · exact ha k hk
            · simp at hk; subst hk; exact ⟨hpre, hinc⟩
        · intro k v
          simp only [content, List.mem_cons, List.mem_append, Prod.mk.injEq, i4]
          constructor
          · rintro (⟨rfl, rfl⟩ | h | h | ⟨h1, h2⟩)
            · exact Or.inr ⟨fun h => hne0 (List.append_cancel_left h).symm, Or.inl ⟨rfl, rfl⟩⟩
            · refine Or.inr ⟨?_, Or.inr (Or.inl h)⟩
              rintro rfl; exact hnotm v h
            · exact Or.inl h
            · exact Or.inr ⟨h1, Or.inr (Or.inr h2)⟩
          · rintro (h | ⟨hne, h | h | h⟩)
            · exact Or.inr (Or.inr (Or.inl h))
            · exact Or.inl h
            · exact Or.inr (Or.inl h)
            · exact Or.inr (Or.inr (Or.inr ⟨hne, h⟩))
        · rcases i5 with h | ⟨h, h'⟩
          · left; simp [chain, h]
          · right
            refine ⟨by simp [chain, h], ?_⟩
            intro k hk
            simp only [chain, List.mem_cons] at hk
            rcases hk with rfl | hk
            · exact ⟨hpre, hinc⟩
            · exact h' k hk

/-! ### delete -/

/-- the pairs of a tree as a relation -/
def SNode.pairs (P : Str) (t : SNode) : Str → Str → Prop := fun k u => (k, u) ∈ content P t

theorem forks_congr {S S' : Str → Str → Prop} {k : Str}
    (h : ∀ a u, k <+: a → (S a u ↔ S' a u)) : Forks S k ↔ Forks S' k := by
  have one : ∀ {S S' : Str → Str → Prop}, (∀ a u, k <+: a → (S a u ↔ S' a u)) → Forks S k → Forks S' k := by
    rintro S S' h ⟨⟨u, hu⟩, a, b, v, w, ha, hb, hka, hkb, hc⟩
    refine ⟨⟨u, (h _ _ List.prefix_rfl).mp hu⟩, a, b, v, w, (h _ _ hka.1).mp ha, (h _ _ hkb.1).mp hb,
      hka, hkb, ?_⟩
    intro c x hcx hkc
    exact hc c x ((h _ _ hkc.1).mpr hcx) hkc
  exact ⟨one h, one fun a u hk => (h a u hk).symm⟩

theorem sleaf_some {n : SNode} {s : Str} (h : n.isLeafWith s = some true) :
    ∃ u f, n = .node u (some f) .nil .nil ∧ f.str = s := by
  unfold SNode.isLeafWith at h
  split at h
  · rename_i u f m mm
    simp only [Option.some.injEq, decide_eq_true_eq] at h
    obtain ⟨h1, rfl, rfl⟩ := h
    exact ⟨u, f, rfl, h1.symm⟩
  · simp at h

theorem sleaf_wf {n : SNode} {P : Str} (hn : n ≠ .nil) (h : WF P n) (s : Str) :
    n.isLeafWith s ≠ none := by
  cases n with
  | nil => exact absurd rfl hn
  | node u f m mm =>
    cases f with
    | none => exact h.elim
    | some f => simp [SNode.isLeafWith]

theorem sdelete_spec : ∀ (t : SNode) (P fs : Str), t ≠ .nil → WF P t →
    t.isLeafWith fs ≠ some true →
    ∃ t', t.delete fs = some t' ∧ t' ≠ .nil ∧ WF P t' ∧
      (∀ k u, (k, u) ∈ content P t' ↔
        (k = P ++ fs ∧ u = [] ∧ Forks (t.pairs P) (P ++ fs)) ∨ (k ≠ P ++ fs ∧ (k, u) ∈ content P t)) ∧
      (∀ k' ∈ chain t', ∃ k ∈ chain t, k <+: k')
  | .nil, _, _, h, _, _ => absurd rfl h
  | .node _ none _ _, _, _, _, h, _ => h.elim
  | .node u (some f) m mm, P, fs, _, ⟨hbit, hf, ha, hn, hwm, hwmm⟩, hleaf => by
    obtain ⟨hsz, hoff⟩ := size_of_wf hf
    have hmbelow : ∀ e ∈ content (P ++ f.str) m, Extends (P ++ f.str) e.1 :=
      fun e he => scontent_below hn he
    have hrest : ∀ e ∈ content P mm, ¬ P ++ f.str <+: e.1 ∧ ¬ e.1 <+: P ++ f.str :=
      fun e he => scontent_rest ha he
    rw [SNode.delete.eq_def]
    dsimp only
    by_cases hpre : f.str <+: fs
    · rw [if_pos ((hasPrefix_iff _ _).mpr hpre)]
      by_cases heq : fs = f.str
      · rw [if_pos heq]
        subst heq
        have hmm_ne : ∀ k v, (k, v) ∈ content P mm → k ≠ P ++ f.str := by
          rintro k v h rfl
          exact (hrest _ h).1 List.prefix_rfl
        have hm_ne : ∀ k v, (k, v) ∈ content (P ++ f.str) m → k ≠ P ++ f.str := by
          rintro k v h hk
          exact (hmbelow _ h).2 hk.symm
        cases m with
        | nil =>
          cases mm with
          | nil => simp [SNode.isLeafWith] at hleaf
          | node u2 f2 m2 mm2 =>
            refine ⟨_, rfl, by simp, hwmm, ?_, ?_⟩
            · intro k v
              constructor
              · intro h
                exact Or.inr ⟨hmm_ne k v h, by simp [content, h]⟩
              · rintro (⟨-, -, -, a, b, v, w, h1, h2, h3, h4, h5⟩ | ⟨hne, h⟩)
                · exfalso
                  simp only [SNode.pairs, content, List.mem_cons, Prod.mk.injEq, List.nil_append] at h1
                  rcases h1 with ⟨rfl, -⟩ | h1
                  · exact h3.2 rfl
                  · exact (hrest _ h1).1 h3.1
                · simp only [content, List.mem_cons, Prod.mk.injEq, List.nil_append] at h
                  rcases h with ⟨rfl, -⟩ | h
                  · exact absurd rfl hne
                  · exact h
            · intro k hk
              exact ⟨k, by simp [chain, hk], List.prefix_rfl⟩
        | node u1 f1 m1 mm1 =>
          cases f1 with
          | none => exact hwm.elim
          | some f1 =>
            obtain ⟨c1, c2, c3, c4, c5, c6⟩ := hwm
            by_cases hm1 : mm1 = .nil
            · subst hm1
              refine ⟨_, rfl, by simp, ⟨?_, ?_, ?_, ?_, ?_, hwmm⟩, ?_, ?_⟩
              · rw [newFilter_str]
                intro c hc
                rcases List.mem_append.mp hc with h | h
                · exact hbit c h
                · exact c1 c h
              · rw [newFilter_str, hoff]
              · rw [newFilter_str]
                intro k hk
                constructor
                · intro h
                  exact (ha k hk).1 ((List.prefix_append _ _).trans h)
                · intro h
                  rcases prefix_or_prefix h (List.prefix_append f.str f1.str) with h | h
                  · exact (ha k hk).2 h
                  · exact (ha k hk).1 h
              · exact c4
              · rw [newFilter_str, ← List.append_assoc]; exact c5
              · intro k v
                simp only [content, newFilter_str, List.mem_cons, List.mem_append, Prod.mk.injEq,
                  ← List.append_assoc, List.append_nil]
                simp only [content, List.mem_cons, Prod.mk.injEq, List.append_nil] at hm_ne
                constructor
                · rintro (h | h | h)
                  · exact Or.inr ⟨hm_ne k v (Or.inl h), Or.inr (Or.inl (Or.inl h))⟩
                  · exact Or.inr ⟨hm_ne k v (Or.inr h), Or.inr (Or.inl (Or.inr h))⟩
                  · exact Or.inr ⟨hmm_ne k v h, Or.inr (Or.inr h)⟩
                · rintro (⟨-, -, -, a, b, v, w, h1, h2, h3, h4, h5⟩ | ⟨hne, ⟨rfl, -⟩ | (h | h) | h⟩)
                  · exfalso
                    have hin : ∀ a v, Extends (P ++ f.str) a →
                        SNode.pairs P (.node u (some f) (.node u1 (some f1) m1 .nil) mm) a v →
                        P ++ f.str ++ f1.str <+: a := by
                      intro a v he hp
                      simp only [SNode.pairs, content, List.mem_cons, List.mem_append, Prod.mk.injEq,
                        List.append_nil] at hp
                      rcases hp with ⟨rfl, -⟩ | (⟨rfl, -⟩ | hp) | hp
                      · exact absurd rfl he.2
                      · exact List.prefix_rfl
                      · exact (scontent_below c4 hp).1
                      · exact absurd he.1 (hrest _ hp).1
                    exact h5 (P ++ f.str ++ f1.str) u1
                      (by simp [SNode.pairs, content]) (proper_append (hn f1.str (by simp [chain])))
                      ⟨hin a v h3 h1, hin b w h4 h2⟩
                  · exact absurd rfl hne
                  · exact Or.inl h
                  · exact Or.inr (Or.inl h)
                  · exact Or.inr (Or.inr h)
              · intro k hk
                simp only [chain, newFilter_str, List.mem_cons] at hk
                rcases hk with rfl | hk
                · exact ⟨f.str, by simp [chain], List.prefix_append _ _⟩
                · exact ⟨k, by simp [chain, hk], List.prefix_rfl⟩
            · -- two children: the node stays without a URI
              have hfork : Forks (SNode.pairs P (.node u (some f) (.node u1 (some f1) m1 mm1) mm))
                  (P ++ f.str) := by
                refine ⟨⟨u, by simp [SNode.pairs, content]⟩, ?_⟩
                cases mm1 with
                | nil => exact absurd rfl hm1
                | node u2 f2 m2 mm2 =>
                  cases f2 with
                  | none => exact c6.elim
                  | some f2 =>
                    have h2 := c3 f2.str (by simp [chain])
                    refine ⟨P ++ f.str ++ f1.str, P ++ f.str ++ f2.str, u1, u2,
                      by simp [SNode.pairs, content], by simp [SNode.pairs, content],
                      proper_append (hn f1.str (by simp [chain])),
                      proper_append (hn f2.str (by simp [chain])), ?_⟩
                    rintro c w hc hkc ⟨hca, hcb⟩
                    simp only [SNode.pairs] at hc
                    rw [content, List.mem_cons, List.mem_append] at hc
                    rcases hc with hc | hc | hc
                    · injection hc with hc _
                      exact hkc.2 hc.symm
                    · obtain ⟨g, hg, hgc⟩ := scontent_chain _ _ _ hc
                      have g1 : g <+: f1.str := (List.prefix_append_right_inj _).mp (hgc.trans hca)
                      have g2 : g <+: f2.str := (List.prefix_append_right_inj _).mp (hgc.trans hcb)
                      simp only [chain, List.mem_cons] at hg
                      rcases hg with rfl | hg
                      · exact h2.1 g2
                      · exact (c3 g (by simp only [chain, List.mem_cons]; exact hg)).2 g1
                    · exact (hrest _ hc).1 hkc.1
              refine ⟨.node [] (some f) (.node u1 (some f1) m1 mm1) mm, by simp [hm1], by simp,
                ⟨hbit, hf, ha, hn, ⟨c1, c2, c3, c4, c5, c6⟩, hwmm⟩, ?_, ?_⟩
              · intro k v
                rw [mem_scontent (P := P) (u := []), mem_scontent (P := P) (u := u)]
                constructor
                · rintro (⟨rfl, rfl⟩ | h | h)
                  · exact Or.inl ⟨rfl, rfl, hfork⟩
                  · exact Or.inr ⟨hm_ne k v h, Or.inr (Or.inl h)⟩
                  · exact Or.inr ⟨hmm_ne k v h, Or.inr (Or.inr h)⟩
                · rintro (⟨rfl, rfl, -⟩ | ⟨hne, ⟨rfl, -⟩ | h | h⟩)
                  · exact Or.inl ⟨rfl, rfl⟩
                  · exact absurd rfl hne
                  · exact Or.inr (Or.inl h)
                  · exact Or.inr (Or.inr h)
              · intro k hk
                exact ⟨k, by simpa [chain] using hk, List.prefix_rfl⟩
      · rw [if_neg heq]
        obtain ⟨r, rfl⟩ := hpre
        have hr : r ≠ [] := by rintro rfl; simp at heq
        have hdrop : (f.str ++ r).drop f.size = r := by rw [hsz, List.drop_left]
        rw [hdrop]
        have hnot : ∀ a v, P ++ (f.str ++ r) <+: a → (a, v) ∉ content P mm := by
          intro a v hpa hv
          rw [← List.append_assoc] at hpa
          exact (hrest _ hv).1 ((List.prefix_append _ _).trans hpa)
        have hhead : ∀ k v, k = P ++ f.str ∧ v = u → k ≠ P ++ (f.str ++ r) := by
          rintro k v ⟨rfl, -⟩; simp [hr]
        have hfk : Forks (SNode.pairs P (.node u (some f) m mm)) (P ++ (f.str ++ r)) ↔
            Forks (SNode.pairs (P ++ f.str) m) (P ++ (f.str ++ r)) := by
          apply forks_congr
          intro a v hpa
          simp only [SNode.pairs, content, List.mem_cons, List.mem_append, Prod.mk.injEq]
          constructor
          · rintro (⟨rfl, -⟩ | h | h)
            · exfalso
              have := hpa.length_le
              have := List.length_pos_iff.mpr hr
              simp at *
              omega
            · exact h
            · exact absurd h (hnot a v hpa)
          · exact fun h => Or.inr (Or.inl h)
        by_cases hmn : m = .nil
        · subst hmn
          rw [if_pos rfl]
          refine ⟨_, rfl, by simp, ⟨hbit, hf, ha, hn, hwm, hwmm⟩, ?_, fun k hk => ⟨k, hk, List.prefix_rfl⟩⟩
          intro k v
          rw [hfk]
          simp only [content, List.mem_cons, List.mem_append, Prod.mk.injEq, List.not_mem_nil, false_or]
          constructor
          · rintro (h | h)
            · exact Or.inr ⟨hhead k v h, Or.inl h⟩
            · refine Or.inr ⟨?_, Or.inr h⟩
              rintro rfl; exact hnot _ v List.prefix_rfl h
          · rintro (⟨-, -, ⟨x, hx⟩, -⟩ | ⟨-, h⟩)
            · simp [SNode.pairs, content] at hx
            · exact h
        · rw [if_neg hmn]
          cases hl : m.isLeafWith r with
          | none => exact absurd hl (sleaf_wf hmn hwm r)
          | some b =>
            cases b with
            | true =>
              obtain ⟨u1, f1, rfl, rfl⟩ := sleaf_some hl
              refine ⟨_, rfl, by simp, ⟨hbit, hf, ha, by simp [chain], trivial, hwmm⟩, ?_,
                fun k hk => ⟨k, by simpa [chain] using hk, List.prefix_rfl⟩⟩
              intro k v
              rw [hfk]
              simp only [content, List.mem_cons, List.mem_append, Prod.mk.injEq, List.not_mem_nil,
                false_or, or_false, List.append_assoc]
              constructor
              · rintro (h | h)
                · exact Or.inr ⟨hhead k v h, Or.inl h⟩
                · refine Or.inr ⟨?_, Or.inr (Or.inr h)⟩
                  rintro rfl; exact hnot _ v List.prefix_rfl h
              · rintro (⟨-, -, -, a, b, v, w, h1, -, h3, -⟩ | ⟨hne, h | ⟨rfl, -⟩ | h⟩)
                · simp only [SNode.pairs, content, List.mem_cons, Prod.mk.injEq, List.not_mem_nil,
                    or_false, List.append_nil, List.append_assoc] at h1
                  exact absurd h1.1.symm h3.2
                · exact Or.inl h
                · exact absurd rfl hne
                · exact Or.inr h
            | false =>
              obtain ⟨m', i1, i2, i3, i4, i5⟩ := sdelete_spec m (P ++ f.str) r hmn hwm (by simp [hl])
              simp only [i1]
              refine ⟨_, rfl, by simp, ⟨hbit, hf, ha, ?_, i3, hwmm⟩, ?_,
                fun k hk => ⟨k, by simpa [chain] using hk, List.prefix_rfl⟩⟩
              · intro k' hk' h0
                obtain ⟨k, hk, hp⟩ := i5 k' hk'
                rw [h0, List.prefix_nil] at hp
                exact hn k hk hp
              · intro k v
                rw [hfk]
                simp only [content, List.mem_cons, List.mem_append, Prod.mk.injEq, i4, List.append_assoc]
                constructor
                · rintro (h | (h | ⟨h1, h2⟩) | h)
                  · exact Or.inr ⟨hhead k v h, Or.inl h⟩
                  · exact Or.inl h
                  · exact Or.inr ⟨h1, Or.inr (Or.inl h2)⟩
                  · refine Or.inr ⟨?_, Or.inr (Or.inr h)⟩
                    rintro rfl; exact hnot _ v List.prefix_rfl h
                · rintro (h | ⟨hne, h | h | h⟩)
                  · exact Or.inr (Or.inl (Or.inl h))
                  · exact Or.inl h
                  · exact Or.inr (Or.inl (Or.inr ⟨hne, h⟩))
                  · exact Or.inr (Or.inr h)
    · rw [if_neg (fun h => hpre ((hasPrefix_iff _ _).mp h))]
      have hhead : ∀ k v, k = P ++ f.str ∧ v = u → k ≠ P ++ fs := by
        rintro k v ⟨rfl, -⟩ h
        exact hpre ((List.append_cancel_left h) ▸ List.prefix_rfl)
      have hnotm : ∀ k v, (k, v) ∈ content (P ++ f.str) m → k ≠ P ++ fs := by
        rintro k v hv rfl
        exact hpre ((List.prefix_append_right_inj P).mp (hmbelow _ hv).1)
      have hkey : ∀ v, SNode.pairs P (.node u (some f) m mm) (P ++ fs) v ↔ SNode.pairs P mm (P ++ fs) v := by
        intro v
        simp only [SNode.pairs, content, List.mem_cons, List.mem_append, Prod.mk.injEq]
        constructor
        · rintro (h | h | h)
          · exact absurd rfl (hhead _ _ h)
          · exact absurd rfl (hnotm _ _ h)
          · exact h
        · exact fun h => Or.inr (Or.inr h)
      have hfk : Forks (SNode.pairs P (.node u (some f) m mm)) (P ++ fs) ↔
          Forks (SNode.pairs P mm) (P ++ fs) := by
        by_cases hst : ∃ v, SNode.pairs P mm (P ++ fs) v
        · obtain ⟨v0, h0⟩ := hst
          have hinc := hrest _ h0
          apply forks_congr
          intro a v hpa
          simp only [SNode.pairs, content, List.mem_cons, List.mem_append, Prod.mk.injEq]
          constructor
          · rintro (⟨rfl, -⟩ | h | h)
            · exact absurd hpa hinc.2
            · exfalso
              rcases prefix_or_prefix hpa (hmbelow _ h).1 with h' | h'
              · exact hinc.2 h'
              · exact hinc.1 h'
            · exact h
          · exact fun h => Or.inr (Or.inr h)
        · constructor
          · rintro ⟨⟨v, hv⟩, -⟩; exact absurd ⟨v, (hkey v).mp hv⟩ hst
          · rintro ⟨hv, -⟩; exact absurd hv hst
      by_cases hmn : mm = .nil
      · subst hmn
        rw [if_pos rfl]
        refine ⟨_, rfl, by simp, ⟨hbit, hf, ha, hn, hwm, hwmm⟩, ?_, fun k hk => ⟨k, hk, List.prefix_rfl⟩⟩
        intro k v
        rw [hfk]
        simp only [content, List.mem_cons, List.mem_append, Prod.mk.injEq, List.not_mem_nil, or_false]
        constructor
        · rintro (h | h)
          · exact Or.inr ⟨hhead k v h, Or.inl h⟩
          · exact Or.inr ⟨hnotm k v h, Or.inr h⟩
        · rintro (⟨-, -, ⟨x, hx⟩, -⟩ | ⟨-, h⟩)
          · simp [SNode.pairs, content] at hx
          · exact h
      · rw [if_neg hmn]
        cases hl : mm.isLeafWith fs with
        | none => exact absurd hl (sleaf_wf hmn hwmm fs)
        | some b =>
          cases b with
          | true =>
            obtain ⟨u1, f1, rfl, rfl⟩ := sleaf_some hl
            refine ⟨_, rfl, by simp, ⟨hbit, hf, by simp [chain], hn, hwm, trivial⟩, ?_, ?_⟩
            · intro k v
              rw [hfk]
              simp only [content, List.mem_cons, List.mem_append, Prod.mk.injEq, List.not_mem_nil,
                or_false]
              constructor
              · rintro (h | h)
                · exact Or.inr ⟨hhead k v h, Or.inl h⟩
                · exact Or.inr ⟨hnotm k v h, Or.inr (Or.inl h)⟩
              · rintro (⟨-, -, -, a, b, v, w, h1, -, h3, -⟩ | ⟨hne, h | h | ⟨rfl, -⟩⟩)
                · simp only [SNode.pairs, content, List.mem_cons, Prod.mk.injEq, List.not_mem_nil,
                    or_false, List.append_nil] at h1
                  exact absurd h1.1.symm h3.2
                · exact Or.inl h
                · exact Or.inr h
                · exact absurd rfl hne
            · intro k hk
              simp only [chain, List.mem_singleton] at hk
              exact ⟨k, by simp [chain, hk], List.prefix_rfl⟩
          | false =>
            obtain ⟨mm', i1, i2, i3, i4, i5⟩ := sdelete_spec mm P fs hmn hwmm (by simp [hl])
            simp only [i1]
            refine ⟨_, rfl, by simp, ⟨hbit, hf, ?_, hn, hwm, i3⟩, ?_, ?_⟩
            · intro k' hk'
              obtain ⟨k, hk, hp⟩ := i5 k' hk'
              constructor
              · intro h
                rcases prefix_or_prefix h hp with h | h
                · exact (ha k hk).1 h
                · exact (ha k hk).2 h
              · intro h
                exact (ha k hk).2 (hp.trans h)
            · intro k v
              rw [hfk]
              simp only [content, List.mem_cons, List.mem_append, Prod.mk.injEq, i4]
              constructor
              · rintro (h | h | h | ⟨h1, h2⟩)
                · exact Or.inr ⟨hhead k v h, Or.inl h⟩
                · exact Or.inr ⟨hnotm k v h, Or.inr (Or.inl h)⟩
                · exact Or.inl h
                · exact Or.inr ⟨h1, Or.inr (Or.inr h2)⟩
              · rintro (h | ⟨hne, h | h | h⟩)
                · exact Or.inr (Or.inr (Or.inl h))
                · exact Or.inl h
                · exact Or.inr (Or.inl h)
                · exact Or.inr (Or.inr (Or.inr ⟨hne, h⟩))
            · intro k' hk'
              simp only [chain, List.mem_cons] at hk'
              rcases hk' with rfl | hk'
              · exact ⟨f.str, by simp [chain], List.prefix_rfl⟩
              · obtain ⟨k, hk, hp⟩ := i5 k' hk'
                exact ⟨k, by simp [chain, hk], hp⟩

/-! ### histories -/

/-- the tree `t` stores the pairs `S` -/
def SStores (t : SNode) (S : Str → Str → Prop) : Prop :=
  t ≠ .nil ∧ WF [] t ∧ ∀ k u, (k, u) ∈ content [] t ↔ S k u

theorem sstores_fresh (b : FlatSubs) (hm : IsMap b) (hb : b ≠ [])
    (hbit : ∀ k u, (k, u) ∈ b → IsBitStr k) :
    ∃ t, newSplayFrom b = some t ∧ SStores t (fun k u => (k, u) ∈ b) := by
  obtain ⟨l, h1, h2, h3, h4⟩ := linkSubset_spec b hm
  have hlen : ∀ k u, (k, u) ∈ b → k.length ≤ maxKeyLength b := fun k u h => le_maxKeyLength b (k, u) h
  have hl : l ≠ [] := by
    rintro rfl
    cases b with
    | nil => exact hb rfl
    | cons e b =>
      have := (h3 e.1 e.2).mpr (by simp)
      exact full_nil _ _ this
  obtain ⟨a1, a2, -, a4⟩ := sbuild_spec (maxKeyLength b + 2) l [] h2 h4
    (fun q u h => by
      have := (h3 q u).mp h
      have h' := hlen _ _ this
      exact ⟨hbit _ _ this, by omega⟩)
    (Or.inr fun q u h => by
      have := hlen _ _ ((h3 q u).mp h)
      omega)
  refine ⟨SNode.build (maxKeyLength b + 2) l, ?_, a1 hl, a2, ?_⟩
  · unfold newSplayFrom
    rw [h1]
    simp [hl]
  · intro k u
    rw [a4]
    simp [h3]

theorem sstores_search {t : SNode} {S : Str → Str → Prop} (h : SStores t S) (id : List Byte)
    (hid : id ≠ []) (hfit : ∀ k u, S k u → k.length ≤ 8 * id.length) :
    ∃ uris t', t.search id = some (uris, t') ∧ ReportsFrom S id uris ∧ (NoForks S → SStores t' S) := by
  obtain ⟨h1, h2, h3⟩ := h
  obtain ⟨rest, lifted, hs⟩ := ssearch_wf id hid t [] true h1 h2 (Or.inl rfl) List.nil_prefix
    fun e he => hfit e.1 e.2 ((h3 _ _).mp he)
  have hs' : t.search id = some (((content [] t).filter fun e => decide (e.1 <+: bitsOf id)).map
      Prod.snd, lifted.foldl attach rest) := by
    unfold SNode.search; rw [hs]
  refine ⟨_, _, hs', ⟨_, scontent_ascending (bitsOf id) t [] h2, ?_, rfl⟩, ?_⟩
  · intro k u; rw [List.mem_filter, decide_eq_true_iff, h3]
  · intro hn
    have hthin : NestedThin t := thin_of_content t [] h2 (by
      intro k a b u v w hk ha hb
      exact hn k a b u v w ((h3 _ _).mp hk) ((h3 _ _).mp ha) ((h3 _ _).mp hb))
    obtain ⟨a1, a2, -, a3⟩ := thin_search_tree h2 hthin hs'
    exact ⟨a1, a2, fun k u => by rw [a3.mem_iff, h3]⟩

theorem sstores_add {t : SNode} {S : Str → Str → Prop} (h : SStores t S) (k uri : Str)
    (hg : GoodStep S (.add k uri)) :
    ∃ t', t.add k uri = some t' ∧ SStores t' (PairsAfter S (.add k uri)) := by
  obtain ⟨h1, h2, h3⟩ := h
  obtain ⟨hk, hs⟩ := hg
  obtain ⟨t', a1, a2, a3, a4, -⟩ := sadd_spec uri t [] k h1 h2 hk (by
    rcases hs with ⟨u, hu⟩ | hs
    · exact Or.inl ⟨u, (h3 _ _).mpr hu⟩
    · exact Or.inr fun e he => hs e.1 e.2 ((h3 _ _).mp he))
  refine ⟨t', a1, a2, a3, ?_⟩
  intro k' u
  rw [a4, h3]
  rfl

theorem sstores_delete {t : SNode} {S : Str → Str → Prop} (h : SStores t S) (k : Str)
    (hg : GoodStep S (.delete k)) :
    ∃ t', t.delete k = some t' ∧ SStores t' (PairsAfter S (.delete k)) := by
  obtain ⟨h1, h2, h3⟩ := h
  have hleaf : t.isLeafWith k ≠ some true := by
    intro hl
    obtain ⟨u, f, rfl, rfl⟩ := sleaf_some hl
    rcases hg with ⟨k', v, hne, hv⟩ | hg
    · rw [← h3] at hv
      simp [content] at hv
      exact hne hv.1
    · exact hg u ((h3 _ _).mp (by simp [content]))
  obtain ⟨t', a1, a2, a3, a4, -⟩ := sdelete_spec t [] k h1 h2 hleaf
  refine ⟨t', a1, a2, a3, ?_⟩
  intro k' u
  rw [a4, h3]
  have hf : Forks (t.pairs []) ([] ++ k) ↔ Forks S k := forks_congr fun a u _ => h3 a u
  rw [hf]
  rfl

end Gosstrak
