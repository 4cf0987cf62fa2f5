import Verif.Proofs.SplayUpdate
import Verif.Proofs.Ids

/-! When exactly searches, additions and deletions of a splay tree go wrong. -/
namespace Gosstrak

open SNode

/-! ### a second search -/

namespace SNode

/-- the matches of a search that may meet the nil pointer -/
def found (t : SNode) (id : List Byte) : Option (List Str) :=
  if t = .nil then some [] else (t.splaySearch true id).map Prod.fst

end SNode

theorem splaySearch_matches (id : List Byte) : ∀ (t : SNode) (first : Bool),
    (t.splaySearch first id).map Prod.fst = (t.splaySearch true id).map Prod.fst
  | .nil, _ => rfl
  | .node _ none _ _, _ => rfl
  | .node u (some f) m mm, first => by
    rw [splaySearch, splaySearch]
    cases f.matchID id with
    | none => rfl
    | some b =>
      cases b with
      | true =>
        dsimp only
        split
        · rfl
        · cases first <;> rfl
      | false => rfl

theorem found_node (id : List Byte) (u : Str) (f : FilterObject) (m mm : SNode) :
    found (.node u (some f) m mm) id = match f.matchID id with
      | none => none
      | some true => (found m id).map (u :: ·)
      | some false => found mm id := by
  unfold found
  rw [if_neg (by simp), splaySearch]
  cases f.matchID id with
  | none => rfl
  | some b =>
    cases b with
    | true =>
      dsimp only
      by_cases hm : m = .nil
      · simp [hm]
      · simp only [hm, if_false]
        cases m.splaySearch true id <;> rfl
    | false =>
      dsimp only
      by_cases hm : mm = .nil
      · simp [hm]
      · simp only [hm, if_false]
        rw [← splaySearch_matches id mm false]
        cases mm.splaySearch false id <;> rfl

theorem found_wf {id : List Byte} (hid : id ≠ []) {t : SNode} {P : Str} (hw : WF P t)
    (hne : P = [] ∨ ∀ k ∈ chain t, k ≠ []) (hP : P <+: bitsOf id)
    (hfit : ∀ e ∈ content P t, e.1.length ≤ 8 * id.length) :
    found t id = some (((content P t).filter fun e => decide (e.1 <+: bitsOf id)).map Prod.snd) := by
  unfold found
  by_cases ht : t = .nil
  · subst ht; simp [content]
  · obtain ⟨rest, lifted, h⟩ := ssearch_wf id hid t P true ht hw hne hP hfit
    rw [if_neg ht, h]; rfl

theorem matches_wf {id : List Byte} (hid : id ≠ []) {u : Str} {f : FilterObject} {m mm : SNode}
    {P : Str} (hw : WF P (.node u (some f) m mm))
    (hne : P = [] ∨ ∀ k ∈ chain (.node u (some f) m mm), k ≠ []) (hP : P <+: bitsOf id)
    (hfit : ∀ e ∈ content P (.node u (some f) m mm), e.1.length ≤ 8 * id.length) :
    f.matchID id = some (decide (P ++ f.str <+: bitsOf id)) := by
  obtain ⟨hbit, hf, -⟩ := hw
  have hlen : P.length + f.str.length ≤ 8 * id.length := by
    have := hfit (P ++ f.str, u) (by simp [content])
    simpa using this
  have hne' : P = [] ∨ f.str ≠ [] := hne.imp (fun h => h) fun h => h f.str (by simp [chain])
  have hm := matchID_prefix hbit hP (scovers hid hne' hlen)
  rwa [← hf] at hm

/-- What is left where a node was lifted from finds less. -/
theorem rest_found {id : List Byte} (hid : id ≠ []) : ∀ (t : SNode) (P : Str) (first : Bool) (ms : List Str)
    (rest : SNode) (lifted : List (Str × Option FilterObject × SNode)),
    WF P t → (P = [] ∨ ∀ k ∈ chain t, k ≠ []) → P <+: bitsOf id →
    (∀ e ∈ content P t, e.1.length ≤ 8 * id.length) →
    t.splaySearch first id = some (ms, rest, lifted) →
    (lifted = [] ∧ rest = t) ∨ ∃ ms', found rest id = some ms' ∧ ms'.length < ms.length
  | .nil, _, _, _, _, _, _, _, _, _, h => by simp [splaySearch] at h
  | .node _ none _ _, _, _, _, _, _, hw, _, _, _, _ => hw.elim
  | .node u (some f) m mm, P, first, ms, rest, lifted, hw, hne, hP, hfit, h => by
    have hmatch := matches_wf hid hw hne hP hfit
    obtain ⟨hbit, hf, ha, hn, hwm, hwmm⟩ := hw
    rw [splaySearch, hmatch] at h
    by_cases hpre : P ++ f.str <+: bitsOf id
    · simp only [hpre, decide_true] at h hmatch
      -- the nested search
      obtain ⟨ms1, m', l1, hs, hnest⟩ : ∃ ms1 m' l1,
          (if m = .nil then some ([], .nil, []) else m.splaySearch true id) = some (ms1, m', l1) ∧
          ((l1 = [] ∧ m' = m) ∨ ∃ ms', found m' id = some ms' ∧ ms'.length < ms1.length) := by
        by_cases hm : m = .nil
        · subst hm; exact ⟨[], .nil, [], by simp, Or.inl ⟨rfl, rfl⟩⟩
        · obtain ⟨r, l, hs⟩ := ssearch_wf id hid m (P ++ f.str) true hm hwm (Or.inr hn) hpre
            (fun e he => hfit e (by simp [content, he]))
          refine ⟨_, r, l, by rw [if_neg hm, hs], ?_⟩
          exact rest_found hid m (P ++ f.str) true _ r l hwm (Or.inr hn) hpre
            (fun e he => hfit e (by simp [content, he])) hs
      rw [hs] at h
      cases first with
      | true =>
        simp only [if_true, Option.some.injEq, Prod.mk.injEq] at h
        obtain ⟨rfl, rfl, rfl⟩ := h
        rcases hnest with ⟨h1, h2⟩ | ⟨ms', h1, h2⟩
        · left; exact ⟨h1, by rw [h2]⟩
        · right
          refine ⟨u :: ms', ?_, by simpa using h2⟩
          rw [found_node, hmatch]
          simp [h1]
      | false =>
        simp only [Bool.false_eq_true, if_false, Option.some.injEq, Prod.mk.injEq] at h
        obtain ⟨rfl, rfl, rfl⟩ := h
        right
        refine ⟨[], ?_, by simp⟩
        rw [found_wf hid hwmm (hne.imp (fun h => h) fun h k hk => h k (by simp [chain, hk])) hP
          (fun e he => hfit e (by simp [content, he])), rest_nomatch ha hpre]
        rfl
    · simp only [hpre, decide_false] at h hmatch
      by_cases hmm : mm = .nil
      · simp only [hmm, if_true, Option.some.injEq, Prod.mk.injEq] at h
        obtain ⟨rfl, rfl, rfl⟩ := h
        exact Or.inl ⟨rfl, by rw [hmm]⟩
      · simp only [hmm, if_false] at h
        have hne2 : P = [] ∨ ∀ k ∈ chain mm, k ≠ [] :=
          hne.imp (fun h => h) fun h k hk => h k (by simp [chain, hk])
        have hfit2 : ∀ e ∈ content P mm, e.1.length ≤ 8 * id.length :=
          fun e he => hfit e (by simp [content, he])
        obtain ⟨r, l, hs⟩ := ssearch_wf id hid mm P false hmm hwmm hne2 hP hfit2
        rw [hs] at h
        simp only [Option.some.injEq, Prod.mk.injEq] at h
        obtain ⟨rfl, rfl, rfl⟩ := h
        rcases rest_found hid mm P false _ r l hwmm hne2 hP hfit2 hs with ⟨h1, h2⟩ | ⟨ms', h1, h2⟩
        · left; exact ⟨h1, by rw [h2]⟩
        · right
          exact ⟨ms', by rw [found_node, hmatch]; exact h1, h2⟩

/-- The last node lifted finds no more than the search that lifted it. -/
theorem last_found {id : List Byte} (hid : id ≠ []) : ∀ (t : SNode) (P : Str) (first : Bool) (ms : List Str)
    (rest : SNode) (lifted : List (Str × Option FilterObject × SNode)),
    WF P t → (P = [] ∨ ∀ k ∈ chain t, k ≠ []) → P <+: bitsOf id →
    (∀ e ∈ content P t, e.1.length ≤ 8 * id.length) →
    t.splaySearch first id = some (ms, rest, lifted) → lifted ≠ [] →
    ∃ l n, lifted = l ++ [n] ∧ ∀ x, ∃ ms', found (attach x n) id = some ms' ∧ ms'.length ≤ ms.length
  | .nil, _, _, _, _, _, _, _, _, _, h, _ => by simp [splaySearch] at h
  | .node _ none _ _, _, _, _, _, _, hw, _, _, _, _, _ => hw.elim
  | .node u (some f) m mm, P, first, ms, rest, lifted, hw, hne, hP, hfit, h, hl => by
    have hmatch := matches_wf hid hw hne hP hfit
    obtain ⟨hbit, hf, ha, hn, hwm, hwmm⟩ := hw
    rw [splaySearch, hmatch] at h
    by_cases hpre : P ++ f.str <+: bitsOf id
    · simp only [hpre, decide_true] at h hmatch
      have hfitm : ∀ e ∈ content (P ++ f.str) m, e.1.length ≤ 8 * id.length :=
        fun e he => hfit e (by simp [content, he])
      obtain ⟨ms1, m', l1, hs, hm'⟩ : ∃ ms1 m' l1,
          (if m = .nil then some ([], .nil, []) else m.splaySearch true id) = some (ms1, m', l1) ∧
          ∃ ms', found m' id = some ms' ∧ ms'.length ≤ ms1.length := by
        by_cases hm : m = .nil
        · subst hm; exact ⟨[], .nil, [], by simp, [], by simp [found], by simp⟩
        · obtain ⟨r, l, hs⟩ := ssearch_wf id hid m (P ++ f.str) true hm hwm (Or.inr hn) hpre hfitm
          refine ⟨_, r, l, by rw [if_neg hm, hs], ?_⟩
          rcases rest_found hid m (P ++ f.str) true _ r l hwm (Or.inr hn) hpre hfitm hs with
            ⟨-, rfl⟩ | ⟨ms', h1, h2⟩
          · exact ⟨_, found_wf hid hwm (Or.inr hn) hpre hfitm, Nat.le_refl _⟩
          · exact ⟨ms', h1, Nat.le_of_lt h2⟩
      rw [hs] at h
      cases first with
      | true =>
        simp only [if_true, Option.some.injEq, Prod.mk.injEq] at h
        obtain ⟨rfl, rfl, rfl⟩ := h
        by_cases hm : m = .nil
        · rw [if_pos hm] at hs
          simp only [Option.some.injEq, Prod.mk.injEq] at hs
          exact absurd hs.2.2.symm hl
        · rw [if_neg hm] at hs
          obtain ⟨l, n, e, hx⟩ := last_found hid m (P ++ f.str) true _ _ _ hwm (Or.inr hn) hpre hfitm hs hl
          refine ⟨l, n, e, fun x => ?_⟩
          obtain ⟨ms', h1, h2⟩ := hx x
          exact ⟨ms', h1, by simp; omega⟩
      | false =>
        simp only [Bool.false_eq_true, if_false, Option.some.injEq, Prod.mk.injEq] at h
        obtain ⟨rfl, rfl, rfl⟩ := h
        refine ⟨l1, _, rfl, fun x => ?_⟩
        obtain ⟨ms', h1, h2⟩ := hm'
        refine ⟨u :: ms', ?_, by simpa using h2⟩
        rw [attach, found_node, hmatch]
        simp [h1]
    · simp only [hpre, decide_false] at h
      by_cases hmm : mm = .nil
      · simp only [hmm, if_true, Option.some.injEq, Prod.mk.injEq] at h
        exact absurd h.2.2.symm hl
      · simp only [hmm, if_false] at h
        have hne2 : P = [] ∨ ∀ k ∈ chain mm, k ≠ [] :=
          hne.imp (fun h => h) fun h k hk => h k (by simp [chain, hk])
        have hfit2 : ∀ e ∈ content P mm, e.1.length ≤ 8 * id.length :=
          fun e he => hfit e (by simp [content, he])
        obtain ⟨r, l, hs⟩ := ssearch_wf id hid mm P false hmm hwmm hne2 hP hfit2
        rw [hs] at h
        simp only [Option.some.injEq, Prod.mk.injEq] at h
        obtain ⟨rfl, rfl, rfl⟩ := h
        exact last_found hid mm P false _ r l hwmm hne2 hP hfit2 hs hl

/-- the second node of a nested chain is lifted when it is found -/
theorem second_lifted {m : SNode} {Q : Str} (hw : WF Q m)
    (hn : ∀ k ∈ chain m, k ≠ []) (hs : ¬ Single m) :
    ∃ g u, (g, u) ∈ content Q m ∧ ∀ id : List Byte, id ≠ [] →
      (∀ e ∈ content Q m, e.1.length ≤ 8 * id.length) → g <+: bitsOf id →
      ∃ ms rest lifted, m.splaySearch true id = some (ms, rest, lifted) ∧ lifted ≠ [] := by
  cases m with
  | nil => exact absurd trivial hs
  | node u1 f1 m1 mm1 =>
    cases f1 with
    | none => exact hw.elim
    | some f1 =>
      cases mm1 with
      | nil => exact absurd rfl hs
      | node u2 f2 m2 mm2 =>
        cases f2 with
        | none => exact hw.2.2.2.2.2.elim
        | some f2 =>
          refine ⟨Q ++ f2.str, u2, by simp [content], fun id hid hfit hg => ?_⟩
          have hQ : Q <+: bitsOf id := (List.prefix_append _ _).trans hg
          have h1 := matches_wf hid hw (Or.inr hn) hQ hfit
          obtain ⟨-, -, ha, -, -, hw2⟩ := hw
          have hn2 : ∀ k ∈ chain (.node u2 (some f2) m2 mm2), k ≠ [] :=
            fun k hk => hn k (by rw [chain]; exact List.mem_cons_of_mem _ hk)
          have hfit2 : ∀ e ∈ content Q (.node u2 (some f2) m2 mm2), e.1.length ≤ 8 * id.length :=
            fun e he => hfit e (by rw [content]; simp [he])
          have h2 := matches_wf hid hw2 (Or.inr hn2) hQ hfit2
          have hno : ¬ Q ++ f1.str <+: bitsOf id := by
            intro h
            have := ha f2.str (by simp [chain])
            rcases prefix_or_prefix h hg with h' | h'
            · exact this.1 ((List.prefix_append_right_inj _).mp h')
            · exact this.2 ((List.prefix_append_right_inj _).mp h')
          obtain ⟨ms2, r, l, hs2⟩ : ∃ ms2 r l, SNode.splaySearch (.node u2 (some f2) m2 mm2) false id =
              some (ms2, r, l) := ⟨_, ssearch_wf id hid _ Q false (by simp) hw2 (Or.inr hn2) hQ hfit2⟩
          refine ⟨ms2, .node u1 (some f1) m1 r, l, ?_, ?_⟩
          · rw [splaySearch, h1]
            simp only [hno, decide_false]
            rw [if_neg (by simp), hs2]
          · rintro rfl
            rw [splaySearch, h2] at hs2
            simp only [hg, decide_true, Bool.false_eq_true, if_false] at hs2
            split at hs2
            · simp at hs2
            · simp at hs2

/-- If a nested chain has two nodes, some search lifts a node that finds less than the search. -/
theorem thick_found : ∀ (t : SNode) (P : Str), WF P t → (P = [] ∨ ∀ k ∈ chain t, k ≠ []) →
    ¬ NestedThin t →
    ∃ g u, (g, u) ∈ content P t ∧ ∀ (id : List Byte) (first : Bool), id ≠ [] →
      (∀ e ∈ content P t, e.1.length ≤ 8 * id.length) → g <+: bitsOf id →
      ∃ ms rest l n, t.splaySearch first id = some (ms, rest, l ++ [n]) ∧
        ∀ x, ∃ ms', found (attach x n) id = some ms' ∧ ms'.length < ms.length
  | .nil, _, _, _, h => absurd trivial h
  | .node _ none _ _, _, hw, _, _ => hw.elim
  | .node u (some f) m mm, P, hw, hne, hthick => by
    have hw0 := hw
    obtain ⟨hbit, hf, ha, hn, hwm, hwmm⟩ := hw
    by_cases hmm : NestedThin mm
    · -- the trouble is below the head
      have hbelow : ∃ g u, (g, u) ∈ content (P ++ f.str) m ∧ ∀ (id : List Byte), id ≠ [] →
          (∀ e ∈ content (P ++ f.str) m, e.1.length ≤ 8 * id.length) → g <+: bitsOf id →
          ∃ ms rest lifted, m.splaySearch true id = some (ms, rest, lifted) ∧ lifted ≠ [] := by
        by_cases hm : NestedThin m
        · have hs : ¬ Single m := fun h => hthick ⟨h, hm, hmm⟩
          exact second_lifted hwm hn hs
        · obtain ⟨g, v, hg, h⟩ := thick_found m (P ++ f.str) hwm (Or.inr hn) hm
          refine ⟨g, v, hg, fun id hid hfit hB => ?_⟩
          obtain ⟨ms, rest, l, n, h1, -⟩ := h id true hid hfit hB
          exact ⟨ms, rest, _, h1, by simp⟩
      obtain ⟨g, v, hg, h⟩ := hbelow
      refine ⟨g, v, by simp [content, hg], fun id first hid hfit hB => ?_⟩
      have hfitm : ∀ e ∈ content (P ++ f.str) m, e.1.length ≤ 8 * id.length :=
        fun e he => hfit e (by simp [content, he])
      obtain ⟨ms1, m', l1, h1, h2⟩ := h id hid hfitm hB
      have hpre : P ++ f.str <+: bitsOf id := (scontent_below hn hg).1.trans hB
      have hP : P <+: bitsOf id := (List.prefix_append _ _).trans hpre
      have hmatch := matches_wf hid hw0 hne hP hfit
      simp only [hpre, decide_true] at hmatch
      have hmn : m ≠ .nil := by rintro rfl; simp [content] at hg
      cases first with
      | true =>
        obtain ⟨l, n, rfl, hx⟩ := last_found hid m (P ++ f.str) true _ _ _ hwm (Or.inr hn) hpre hfitm h1 h2
        refine ⟨u :: ms1, .node u (some f) m' mm, l, n, ?_, fun x => ?_⟩
        · rw [splaySearch, hmatch]
          simp only [hmn, if_false, h1, if_true]
        · obtain ⟨ms', g1, g2⟩ := hx x
          exact ⟨ms', g1, by simp; omega⟩
      | false =>
        refine ⟨u :: ms1, mm, l1, (u, some f, m'), ?_, fun x => ?_⟩
        · rw [splaySearch, hmatch]
          simp only [hmn, if_false, h1, Bool.false_eq_true]
        · rcases rest_found hid m (P ++ f.str) true _ _ _ hwm (Or.inr hn) hpre hfitm h1 with
            ⟨h0, -⟩ | ⟨ms', g1, g2⟩
          · exact absurd h0 h2
          · refine ⟨u :: ms', ?_, by simpa using g2⟩
            rw [attach, found_node, hmatch]
            simp [g1]
    · have hne2 : P = [] ∨ ∀ k ∈ chain mm, k ≠ [] :=
        hne.imp (fun h => h) fun h k hk => h k (by simp [chain, hk])
      obtain ⟨g, v, hg, h⟩ := thick_found mm P hwmm hne2 hmm
      refine ⟨g, v, by simp [content, hg], fun id first hid hfit hB => ?_⟩
      obtain ⟨ms, rest, l, n, h1, h2⟩ := h id false hid (fun e he => hfit e (by simp [content, he])) hB
      have hno : ¬ P ++ f.str <+: bitsOf id := by
        intro h'
        have := scontent_rest ha hg
        rcases prefix_or_prefix h' hB with h'' | h''
        · exact this.1 h''
        · exact this.2 h''
      have hP : P <+: bitsOf id := by
        obtain ⟨k, -, hk⟩ := scontent_chain mm P _ hg
        exact ((List.prefix_append _ _).trans hk).trans hB
      have hmatch := matches_wf hid hw0 hne hP hfit
      simp only [hno, decide_false] at hmatch
      have hmn : mm ≠ .nil := by rintro rfl; simp [content] at hg
      refine ⟨ms, .node u (some f) m rest, l, n, ?_, h2⟩
      rw [splaySearch, hmatch]
      simp only [hmn, if_false, h1]

/-! ### an addition -/

theorem add_some (uri : Str) : ∀ {t : SNode} {P : Str} (fs : Str), t ≠ .nil → WF P t →
    ∃ t', t.add fs uri = some t'
  | .nil, _, _, h, _ => absurd rfl h
  | .node _ none _ _, _, _, _, h => h.elim
  | .node u (some f) m mm, P, fs, _, ⟨_, _, _, _, hwm, hwmm⟩ => by
    rw [SNode.add.eq_def]
    dsimp only
    split
    · split
      · exact ⟨_, rfl⟩
      · split
        · exact ⟨_, rfl⟩
        · rename_i h
          obtain ⟨m', hm⟩ := add_some uri (fs.drop f.size) h hwm
          rw [hm]; exact ⟨_, rfl⟩
    · split
      · exact ⟨_, rfl⟩
      · rename_i h
        obtain ⟨m', hm⟩ := add_some uri fs h hwmm
        rw [hm]; exact ⟨_, rfl⟩

/-- What a search finds after the addition of a filter that was not stored: in addition the new one,
    if it starts the ID and no stored extension of it does. -/
theorem add_found (uri : Str) {id : List Byte} (hid : id ≠ []) : ∀ (t : SNode) (P fs : Str), t ≠ .nil → WF P t →
    (P = [] ∨ ∀ k ∈ chain t, k ≠ []) → (P = [] ∨ fs ≠ []) → IsBitStr fs →
    (∀ v, (P ++ fs, v) ∉ content P t) → P <+: bitsOf id →
    (∀ e ∈ content P t, e.1.length ≤ 8 * id.length) → (P ++ fs).length ≤ 8 * id.length →
    ∃ t' ms ms', t.add fs uri = some t' ∧ t' ≠ .nil ∧ found t id = some ms ∧ found t' id = some ms' ∧
      ((P ++ fs <+: bitsOf id ∧ ∀ e ∈ content P t, Extends (P ++ fs) e.1 → ¬ e.1 <+: bitsOf id) →
        ms' = ms ++ [uri]) ∧
      (¬ (P ++ fs <+: bitsOf id ∧ ∀ e ∈ content P t, Extends (P ++ fs) e.1 → ¬ e.1 <+: bitsOf id) →
        ms' = ms)
  | .nil, _, _, h, _, _, _, _, _, _, _, _ => absurd rfl h
  | .node _ none _ _, _, _, _, h, _, _, _, _, _, _, _ => h.elim
  | .node u (some f) m mm, P, fs, _, hw, hne, hfne, hfs, hnew, hP, hfit, hlen => by
    have hmatch := matches_wf hid hw hne hP hfit
    have hleaf : ∀ (Q s : Str) (o : Nat), IsBitStr s → Q <+: bitsOf id → (Q = [] ∨ s ≠ []) →
        Q.length + s.length ≤ 8 * id.length → o = Q.length →
        found (.node uri (some (newFilter s o)) .nil .nil) id =
          some (if Q ++ s <+: bitsOf id then [uri] else []) := by
      rintro Q s o hs hQ hn0 hl rfl
      have hm := matchID_prefix hs hQ (scovers (f := newFilter s Q.length) hid
        (by rw [newFilter_str]; exact hn0) (by rw [newFilter_str]; exact hl))
      rw [found_node, hm]
      by_cases h : Q ++ s <+: bitsOf id <;> simp [h, found]
    obtain ⟨hbit, hf, ha, hn, hwm, hwmm⟩ := hw
    obtain ⟨hsz, hoff⟩ := size_of_wf hf
    have hfitm : ∀ e ∈ content (P ++ f.str) m, e.1.length ≤ 8 * id.length :=
      fun e he => hfit e (by simp [content, he])
    have hfitmm : ∀ e ∈ content P mm, e.1.length ≤ 8 * id.length :=
      fun e he => hfit e (by simp [content, he])
    have hnemm : P = [] ∨ ∀ k ∈ chain mm, k ≠ [] :=
      hne.imp (fun h => h) fun h k hk => h k (by simp [chain, hk])
    rw [SNode.add.eq_def]
    dsimp only
    by_cases hpre : f.str <+: fs
    · rw [if_pos ((hasPrefix_iff _ _).mpr hpre)]
      have heq : fs ≠ f.str := by rintro rfl; exact hnew u (by simp [content])
      rw [if_neg heq]
      obtain ⟨r, rfl⟩ := hpre
      have hr : r ≠ [] := by rintro rfl; simp at heq
      have hdrop : (f.str ++ r).drop f.size = r := by rw [hsz, List.drop_left]
      rw [hdrop]
      -- extensions of the new filter are below the head
      have hext : ∀ e, Extends (P ++ (f.str ++ r)) e.1 → e ∈ content P (.node u (some f) m mm) →
          e ∈ content (P ++ f.str) m := by
        intro e he h
        have hx : P ++ f.str <+: e.1 := by
          rw [← List.append_assoc] at he; exact (List.prefix_append _ _).trans he.1
        simp only [content, List.mem_cons, List.mem_append] at h
        rcases h with rfl | h | h
        · exfalso
          have := he.1.length_le
          have := List.length_pos_iff.mpr hr
          simp at *
          omega
        · exact h
        · exact absurd hx (scontent_rest ha h).1
      by_cases hpm : P ++ f.str <+: bitsOf id
      · simp only [hpm, decide_true] at hmatch
        by_cases hmn : m = .nil
        · subst hmn
          rw [if_pos rfl]
          refine ⟨_, [u], u :: (if P ++ f.str ++ r <+: bitsOf id then [uri] else []), rfl, by simp,
            by rw [found_node, hmatch]; rfl, ?_, ?_, ?_⟩
          · rw [found_node, hmatch]
            simp only
            rw [hleaf (P ++ f.str) r _ hfs.of_append_right hpm (Or.inr hr)
              (by simp at hlen ⊢; omega) (by rw [hsz, hoff, List.length_append])]
            rfl
          · rintro ⟨h1, -⟩
            rw [if_pos (by rw [List.append_assoc]; exact h1)]; rfl
          · intro h
            rw [if_neg]
            intro h1
            refine h ⟨by rw [← List.append_assoc]; exact h1, fun e he hx => ?_⟩
            have := hext e hx he
            simp [content] at this
        · rw [if_neg hmn]
          obtain ⟨m', ms, ms', i1, i2, i3, i4, i5, i6⟩ := add_found uri hid m (P ++ f.str) r hmn hwm
            (Or.inr hn) (Or.inr hr) hfs.of_append_right (fun v hv => hnew v (by
              rw [List.append_assoc] at hv; simp [content, hv])) hpm hfitm
            (by rw [List.append_assoc]; exact hlen)
          rw [i1]
          have hcond : (P ++ f.str ++ r <+: bitsOf id ∧ ∀ e ∈ content (P ++ f.str) m,
                Extends (P ++ f.str ++ r) e.1 → ¬ e.1 <+: bitsOf id) ↔
              (P ++ (f.str ++ r) <+: bitsOf id ∧ ∀ e ∈ content P (.node u (some f) m mm),
                Extends (P ++ (f.str ++ r)) e.1 → ¬ e.1 <+: bitsOf id) := by
            rw [List.append_assoc]
            refine and_congr_right fun _ => ⟨fun h e he hx => h e (hext e hx he) hx,
              fun h e he => h e (by simp [content, he])⟩
          refine ⟨_, u :: ms, u :: ms', rfl, by simp, ?_, ?_, ?_, ?_⟩
          · rw [found_node, hmatch]; simp [i3]
          · rw [found_node, hmatch]; simp [i4]
          · intro h; rw [i5 (hcond.mpr h)]; rfl
          · intro h; rw [i6 (fun h' => h (hcond.mp h'))]
      · simp only [hpm, decide_false] at hmatch
        have hno : ¬ P ++ (f.str ++ r) <+: bitsOf id := by
          intro h
          rw [← List.append_assoc] at h
          exact hpm ((List.prefix_append _ _).trans h)
        have hfm := found_wf hid hwmm hnemm hP hfitmm
        by_cases hmn : m = .nil
        · subst hmn
          rw [if_pos rfl]
          refine ⟨_, _, _, rfl, by simp, by rw [found_node, hmatch]; exact hfm,
            by rw [found_node, hmatch]; exact hfm, fun h => absurd h.1 hno, fun _ => rfl⟩
        · rw [if_neg hmn]
          -- the nested addition does not panic
          obtain ⟨m', i1⟩ : ∃ m', m.add r uri = some m' := add_some uri r hmn hwm
          rw [i1]
          refine ⟨_, _, _, rfl, by simp, by rw [found_node, hmatch]; exact hfm,
            by rw [found_node, hmatch]; exact hfm, fun h => absurd h.1 hno, fun _ => rfl⟩
    · rw [if_neg (fun h => hpre ((hasPrefix_iff _ _).mp h))]
      by_cases hpm : P ++ f.str <+: bitsOf id
      · simp only [hpm, decide_true] at hmatch
        -- the head hides the new filter
        have hhide : ¬ (P ++ fs <+: bitsOf id ∧ ∀ e ∈ content P (.node u (some f) m mm),
            Extends (P ++ fs) e.1 → ¬ e.1 <+: bitsOf id) := by
          rintro ⟨h1, h2⟩
          rcases prefix_or_prefix hpm h1 with h | h
          · exact hpre ((List.prefix_append_right_inj P).mp h)
          · refine h2 (P ++ f.str, u) (by simp [content]) ⟨h, ?_⟩ hpm
            intro e
            exact hpre (by rw [List.append_cancel_left e]; exact List.prefix_rfl)
        obtain ⟨ms, hms⟩ : ∃ ms, found m id = some ms := ⟨_, found_wf hid hwm (Or.inr hn) hpm hfitm⟩
        by_cases hmn : mm = .nil
        · subst hmn
          rw [if_pos rfl]
          refine ⟨_, u :: ms, u :: ms, rfl, by simp, by rw [found_node, hmatch]; simp [hms],
            by rw [found_node, hmatch]; simp [hms], fun h => absurd h hhide, fun _ => rfl⟩
        · rw [if_neg hmn]
          obtain ⟨mm', i1⟩ : ∃ mm', mm.add fs uri = some mm' := add_some uri fs hmn hwmm
          rw [i1]
          refine ⟨_, u :: ms, u :: ms, rfl, by simp, by rw [found_node, hmatch]; simp [hms],
            by rw [found_node, hmatch]; simp [hms], fun h => absurd h hhide, fun _ => rfl⟩
      · simp only [hpm, decide_false] at hmatch
        -- what starts the ID is in the rest of the chain
        have hstart : ∀ e, e.1 <+: bitsOf id → e ∈ content P (.node u (some f) m mm) → e ∈ content P mm := by
          intro e he h
          simp only [content, List.mem_cons, List.mem_append] at h
          rcases h with rfl | h | h
          · exact absurd he hpm
          · exact absurd ((scontent_below hn h).1.trans he) hpm
          · exact h
        by_cases hmn : mm = .nil
        · subst hmn
          rw [if_pos rfl]
          refine ⟨_, [], if P ++ fs <+: bitsOf id then [uri] else [], rfl, by simp,
            by rw [found_node, hmatch]; rfl, ?_, ?_, ?_⟩
          · rw [found_node, hmatch]
            exact hleaf P fs _ hfs hP hfne (by simpa using hlen) hoff
          · rintro ⟨h1, -⟩; rw [if_pos h1]; rfl
          · intro h
            rw [if_neg]
            intro h1
            refine h ⟨h1, fun e he _ hB => ?_⟩
            have := hstart e hB he
            simp [content] at this
        · rw [if_neg hmn]
          obtain ⟨mm', ms, ms', i1, i2, i3, i4, i5, i6⟩ := add_found uri hid mm P fs hmn hwmm hnemm hfne hfs
            (fun v hv => hnew v (by simp [content, hv])) hP hfitmm hlen
          rw [i1]
          have hcond : (P ++ fs <+: bitsOf id ∧ ∀ e ∈ content P mm,
                Extends (P ++ fs) e.1 → ¬ e.1 <+: bitsOf id) ↔
              (P ++ fs <+: bitsOf id ∧ ∀ e ∈ content P (.node u (some f) m mm),
                Extends (P ++ fs) e.1 → ¬ e.1 <+: bitsOf id) := by
            refine and_congr_right fun _ => ⟨fun h e he hx hB => h e (hstart e hB he) hx hB,
              fun h e he => h e (by simp [content, he])⟩
          refine ⟨_, ms, ms', rfl, by simp, ?_, ?_, ?_, ?_⟩
          · rw [found_node, hmatch]; exact i3
          · rw [found_node, hmatch]; exact i4
          · intro h; exact i5 (hcond.mpr h)
          · intro h; exact i6 fun h' => h (hcond.mp h')

/-! ### trees as stored relations -/

theorem scontent_bits : ∀ (t : SNode) (P : Str), WF P t → IsBitStr P → ∀ e ∈ content P t, IsBitStr e.1
  | .nil, _, _, _, e, h => by simp [content] at h
  | .node _ none _ _, _, h, _, _, _ => h.elim
  | .node u (some f) m mm, P, ⟨hbit, hf, ha, hn, hwm, hwmm⟩, hP, e, h => by
    have hb : IsBitStr (P ++ f.str) := fun c hc =>
      (List.mem_append.mp hc).elim (hP c) (hbit c)
    simp only [content, List.mem_cons, List.mem_append] at h
    rcases h with rfl | h | h
    · exact hb
    · exact scontent_bits m _ hwm hb e h
    · exact scontent_bits mm _ hwmm hP e h

theorem single_comparable : ∀ (t : SNode) (P : Str), (∀ k ∈ chain t, k ≠ []) → WF P t → Single t →
    NestedThin t → ∀ a ∈ content P t, ∀ b ∈ content P t, a.1 <+: b.1 ∨ b.1 <+: a.1
  | .nil, _, _, _, _, _, a, h, _, _ => by simp [content] at h
  | .node _ none _ _, _, _, h, _, _, _, _, _, _ => h.elim
  | .node u (some f) m mm, P, _, ⟨hbit, hf, ha, hn, hwm, hwmm⟩, hs, ⟨hsm, htm, _⟩, a, h1, b, h2 => by
    simp only [Single] at hs
    subst hs
    simp only [content, List.append_nil, List.mem_cons] at h1 h2
    rcases h1 with rfl | h1
    · rcases h2 with rfl | h2
      · exact Or.inl List.prefix_rfl
      · exact Or.inl (scontent_below hn h2).1
    · rcases h2 with rfl | h2
      · exact Or.inr (scontent_below hn h1).1
      · exact single_comparable m _ hn hwm hsm htm a h1 b h2

theorem thin_comparable : ∀ (t : SNode) (P : Str), WF P t → NestedThin t →
    ∀ k ∈ content P t, ∀ a ∈ content P t, ∀ b ∈ content P t, Extends k.1 a.1 → Extends k.1 b.1 →
      a.1 <+: b.1 ∨ b.1 <+: a.1
  | .nil, _, _, _, a, h, _, _, _, _, _, _ => by simp [content] at h
  | .node _ none _ _, _, h, _, _, _, _, _, _, _, _, _ => h.elim
  | .node u (some f) m mm, P, ⟨hbit, hf, ha, hn, hwm, hwmm⟩, ⟨hs, htm, htmm⟩, k, hk, a, h1, b, h2, e1, e2 => by
    -- below the head everything is comparable
    have hmem : ∀ e, P ++ f.str <+: e.1 → e ∈ content P (.node u (some f) m mm) →
        e.1 = P ++ f.str ∨ e ∈ content (P ++ f.str) m := by
      intro e he h
      simp only [content, List.mem_cons, List.mem_append] at h
      rcases h with rfl | h | h
      · exact Or.inl rfl
      · exact Or.inr h
      · exact absurd he (scontent_rest ha h).1
    have hhead : P ++ f.str <+: k.1 → a.1 <+: b.1 ∨ b.1 <+: a.1 := by
      intro hp
      rcases hmem a (hp.trans e1.1) h1 with h1 | h1
      · rw [h1]; exact Or.inl (hp.trans e2.1)
      · rcases hmem b (hp.trans e2.1) h2 with h2 | h2
        · rw [h2]; exact Or.inr (hp.trans e1.1)
        · exact single_comparable m _ hn hwm hs htm a h1 b h2
    have hk' := hk
    simp only [content, List.mem_cons, List.mem_append] at hk'
    rcases hk' with rfl | hk' | hk'
    · exact hhead List.prefix_rfl
    · exact hhead (scontent_below hn hk').1
    · have hrest : ∀ e, Extends k.1 e.1 → e ∈ content P (.node u (some f) m mm) → e ∈ content P mm := by
        intro e he h
        have hx := scontent_rest ha hk'
        simp only [content, List.mem_cons, List.mem_append] at h
        rcases h with rfl | h | h
        · exact absurd he.1 hx.2
        · rcases prefix_or_prefix (scontent_below hn h).1 he.1 with h' | h'
          · exact absurd h' hx.1
          · exact absurd h' hx.2
        · exact h
      exact thin_comparable mm P hwmm htmm k hk' a (hrest a e1 h1) b (hrest b e2 h2) e1 e2

/-- the reports due are determined by the stored pairs -/
theorem reportsFrom_unique {S : Str → Str → Prop} {id : List Byte} {us vs : List Str}
    (h : ReportsFrom S id us) (h' : ReportsFrom S id vs) : us = vs := by
  obtain ⟨l, h1, h2, rfl⟩ := h
  obtain ⟨l', h1', h2', rfl⟩ := h'
  have nd : ∀ {l : FlatSubs}, (l.map Prod.fst).Pairwise (· < ·) → l.Nodup := by
    intro l hl
    rw [List.pairwise_map] at hl
    exact hl.imp fun h => by rintro rfl; exact List.lt_irrefl _ h
  have hp : l.Perm l' := (List.perm_ext_iff_of_nodup (nd h1) (nd h1')).mpr fun a => by
    rw [h2 a.1 a.2, h2' a.1 a.2]
  have heq : l = l' := by
    refine hp.eq_of_pairwise (le := fun a b => a.1 < b.1) ?_ (List.pairwise_map.mp h1) (List.pairwise_map.mp h1')
    intro a b _ _ hab hba
    exact absurd (List.lt_trans hab hba) (List.lt_irrefl _)
  rw [heq]

theorem reportsFrom_congr {S S' : Str → Str → Prop} {id : List Byte} {us : List Str}
    (hS : ∀ k u, S k u ↔ S' k u) (h : ReportsFrom S id us) : ReportsFrom S' id us := by
  obtain ⟨l, h1, h2, h3⟩ := h
  exact ⟨l, h1, fun k u => by rw [h2, hS], h3⟩

/-- If a filter has two children, there is an ID whose second search finds less than the first. -/
theorem sstores_twice {t : SNode} {S : Str → Str → Prop} (h : SStores t S) (hf : ¬ NoForks S) (n : Nat) :
    ∃ id, LongEnough S id ∧ n ≤ 8 * id.length ∧ ∃ us t' vs t'', t.search id = some (us, t') ∧
      t'.search id = some (vs, t'') ∧ ReportsFrom S id us ∧ vs.length < us.length := by
  obtain ⟨h1, h2, h3⟩ := h
  have hthick : ¬ NestedThin t := by
    intro ht
    refine hf fun k a b u v w hk ha hb => ?_
    exact thin_comparable t [] h2 ht (k, u) ((h3 _ _).mpr hk) (a, v) ((h3 _ _).mpr ha) (b, w)
      ((h3 _ _).mpr hb)
  obtain ⟨g, u, hg, hs⟩ := thick_found t [] h2 (Or.inl rfl) hthick
  obtain ⟨N, hN⟩ := length_bound ((content [] t).map Prod.fst)
  obtain ⟨id, i1, i2, i3⟩ := exists_id_from (scontent_bits t [] h2 (by simp [IsBitStr]) _ hg) (N + n)
  have hfit : ∀ e ∈ content [] t, e.1.length ≤ 8 * id.length := fun e he =>
    Nat.le_trans (hN e.1 (List.mem_map_of_mem he)) (by omega)
  obtain ⟨ms, rest, l, nd, j1, j2⟩ := hs id true i1 hfit i2
  have hlong : LongEnough S id := ⟨i1, fun k v hk => hfit (k, v) ((h3 _ _).mpr hk)⟩
  have hsearch : t.search id = some (ms, (l ++ [nd]).foldl attach rest) := by
    unfold SNode.search; rw [j1]
  obtain ⟨us, t', k1, k2, -⟩ := sstores_search ⟨h1, h2, h3⟩ id i1 hlong.2
  rw [hsearch] at k1
  simp only [Option.some.injEq, Prod.mk.injEq] at k1
  obtain ⟨rfl, rfl⟩ := k1
  obtain ⟨vs, m1, m2⟩ := j2 (l.foldl attach rest)
  refine ⟨id, hlong, by omega, ms, (l ++ [nd]).foldl attach rest, vs, ?_⟩
  have m1' : (SNode.splaySearch (attach (l.foldl attach rest) nd) true id).map Prod.fst = some vs := by
    unfold found at m1
    rwa [if_neg (by simp [attach])] at m1
  cases hq : SNode.splaySearch (attach (l.foldl attach rest) nd) true id with
  | none => rw [hq] at m1'; simp at m1'
  | some r =>
    obtain ⟨a, b, c⟩ := r
    rw [hq] at m1'
    simp only [Option.map_some, Option.some.injEq] at m1'
    subst m1'
    refine ⟨c.foldl attach b, ?_, ?_, k2, m2⟩
    · exact hsearch
    · rw [List.foldl_append, List.foldl_cons, List.foldl_nil]
      unfold SNode.search; rw [hq]

theorem found_search {t t' : SNode} {id : List Byte} {us : List Str} (h : t.search id = some (us, t')) :
    found t id = some us := by
  unfold found
  unfold SNode.search at h
  cases hq : t.splaySearch true id with
  | none => rw [hq] at h; simp at h
  | some r =>
    rw [hq] at h
    simp only [Option.some.injEq, Prod.mk.injEq] at h
    rw [if_neg (by rintro rfl; simp [splaySearch] at hq)]
    simp [h.1]

theorem search_of_found {t : SNode} {id : List Byte} {us : List Str} (ht : t ≠ .nil)
    (h : found t id = some us) : ∃ t', t.search id = some (us, t') := by
  unfold found at h
  rw [if_neg ht] at h
  unfold SNode.search
  cases hq : t.splaySearch true id with
  | none => rw [hq] at h; simp at h
  | some r =>
    obtain ⟨a, b, c⟩ := r
    rw [hq] at h
    simp only [Option.map_some, Option.some.injEq] at h
    exact ⟨c.foldl attach b, by simp [h]⟩

/-- What an addition of a filter that is not stored does to every search. -/
theorem sstores_add_exact {t : SNode} {S : Str → Str → Prop} (h : SStores t S) {k : Str} (uri : Str)
    (hk : IsBitStr k) (hnew : ∀ u, ¬ S k u) {id : List Byte} (hid : LongEnough S id)
    (hkl : k.length ≤ 8 * id.length) :
    ∃ t' us us' t'', t.add k uri = some t' ∧ ReportsFrom S id us ∧ t'.search id = some (us', t'') ∧
      ((k <+: bitsOf id ∧ ∀ e v, S e v → Extends k e → ¬ e <+: bitsOf id) → us' = us ++ [uri]) ∧
      (¬ (k <+: bitsOf id ∧ ∀ e v, S e v → Extends k e → ¬ e <+: bitsOf id) → us' = us) := by
  obtain ⟨us, t1, a1, a2, -⟩ := sstores_search h id hid.1 hid.2
  obtain ⟨h1, h2, h3⟩ := h
  obtain ⟨t', ms, ms', b1, b2, b3, b4, b5, b6⟩ := add_found uri hid.1 t [] k h1 h2 (Or.inl rfl) (Or.inl rfl) hk
    (fun v hv => hnew v ((h3 _ _).mp hv)) List.nil_prefix
    (fun e he => hid.2 e.1 e.2 ((h3 _ _).mp he)) hkl
  rw [found_search a1] at b3
  cases b3
  obtain ⟨t'', c⟩ := search_of_found b2 b4
  have hcond : (k <+: bitsOf id ∧ ∀ e v, S e v → Extends k e → ¬ e <+: bitsOf id) ↔
      ([] ++ k <+: bitsOf id ∧ ∀ e ∈ content [] t, Extends ([] ++ k) e.1 → ¬ e.1 <+: bitsOf id) := by
    rw [List.nil_append]
    refine and_congr_right fun _ => ⟨fun h e he => h e.1 e.2 ((h3 _ _).mp he),
      fun h e v he => h (e, v) ((h3 _ _).mpr he)⟩
  exact ⟨t', us, ms', t'', b1, a2, c, fun h => b5 (hcond.mp h), fun h => b6 fun h' => h (hcond.mpr h')⟩

theorem scontent_nonempty : ∀ {t : SNode} {P : Str}, t ≠ .nil → WF P t → ∃ e, e ∈ content P t
  | .nil, _, h, _ => absurd rfl h
  | .node _ none _ _, _, _, h => h.elim
  | .node u (some f) m mm, P, _, _ => ⟨(P ++ f.str, u), by simp [content]⟩

/-- A deletion of the only filter does nothing. -/
theorem sstores_delete_only {t : SNode} {S : Str → Str → Prop} (h : SStores t S) {k : Str}
    (honly : ∀ k' u, S k' u → k' = k) : t.delete k = some t := by
  obtain ⟨h1, h2, h3⟩ := h
  cases t with
  | nil => exact absurd rfl h1
  | node u f m mm =>
    cases f with
    | none => exact h2.elim
    | some f =>
      obtain ⟨hbit, hf, ha, hn, hwm, hwmm⟩ := h2
      have hk : f.str = k := honly f.str u ((h3 _ _).mp (by simp [content]))
      have hm : m = .nil := by
        cases hm : decide (m = .nil) with
        | true => exact of_decide_eq_true hm
        | false =>
          obtain ⟨e, he⟩ := scontent_nonempty (of_decide_eq_false hm) hwm
          have := (scontent_below hn he).2
          rw [List.nil_append, hk] at this
          exact absurd (honly e.1 e.2 ((h3 _ _).mp (mem_scontent.mpr (Or.inr (Or.inl he))))).symm this
      have hmm : mm = .nil := by
        cases hm : decide (mm = .nil) with
        | true => exact of_decide_eq_true hm
        | false =>
          obtain ⟨e, he⟩ := scontent_nonempty (of_decide_eq_false hm) hwmm
          have := (scontent_rest ha he).2
          rw [List.nil_append, hk,
            honly e.1 e.2 ((h3 _ _).mp (mem_scontent.mpr (Or.inr (Or.inr he))))] at this
          exact absurd List.prefix_rfl this
      subst hm hmm
      rw [SNode.delete, if_pos ((hasPrefix_iff _ _).mpr (by rw [hk]; exact List.prefix_rfl))]
      simp [hk]

/-- one stored filter less that starts the ID, one report less -/
theorem reportsFrom_lt {S S' : Str → Str → Prop} {id : List Byte} {us vs : List Str} {k w : Str}
    (h : ReportsFrom S id us) (h' : ReportsFrom S' id vs) (hS : ∀ k' u, S k' u ↔ k' ≠ k ∧ S' k' u)
    (hk : S' k w) (hp : k <+: bitsOf id) : us.length < vs.length := by
  obtain ⟨l', h1, h2, rfl⟩ := h'
  have hf : ReportsFrom S id ((l'.filter fun e => decide (e.1 ≠ k)).map Prod.snd) := by
    refine ⟨_, ?_, ?_, rfl⟩
    · exact h1.sublist (List.filter_sublist.map _)
    · intro k' u
      rw [List.mem_filter, h2, hS, decide_eq_true_iff]
      constructor
      · rintro ⟨⟨a, b⟩, c⟩; exact ⟨⟨c, a⟩, b⟩
      · rintro ⟨⟨c, a⟩, b⟩; exact ⟨⟨a, b⟩, c⟩
  rw [reportsFrom_unique h hf, List.length_map, List.length_map]
  exact List.length_filter_lt_length_iff_exists.mpr ⟨(k, w), (h2 k w).mpr ⟨hk, hp⟩, by simp⟩

/-- an ID that starts with a given bit string and is as long as all stored filters -/
theorem sstores_id {t : SNode} {S : Str → Str → Prop} (h : SStores t S) {g : Str} (hg : IsBitStr g) (n : Nat) :
    ∃ id, LongEnough S id ∧ g <+: bitsOf id ∧ n ≤ 8 * id.length := by
  obtain ⟨N, hN⟩ := length_bound ((content [] t).map Prod.fst)
  obtain ⟨id, i1, i2, i3⟩ := exists_id_from hg (N + n)
  exact ⟨id, ⟨i1, fun k u hk => Nat.le_trans
    (hN k (List.mem_map.mpr ⟨(k, u), (h.2.2 _ _).mpr hk, rfl⟩)) (by omega)⟩, i2, by omega⟩

theorem sstores_bits {t : SNode} {S : Str → Str → Prop} (h : SStores t S) {k u : Str} (hk : S k u) :
    IsBitStr k :=
  scontent_bits t [] h.2.1 (by simp [IsBitStr]) (k, u) ((h.2.2 _ _).mpr hk)

end Gosstrak
