import Verif.Proofs.Rack

/-! Searches in the groups of a splay tree. -/
namespace Gosstrak

open SNode

theorem sift_outside (B : Str) (p : Nat) {K : Str} : ∀ (L : FlatSubs) (first : Bool),
    (∀ e ∈ L, ¬ K <+: e.1) → sift B p K first L = ([], L, [])
  | [], _, _ => rfl
  | (R, u) :: L, first, h => by
    rw [sift, if_neg fun h1 => h (R, u) (by simp) h1.1,
      sift_outside B p L false fun e he => h e (by simp [he])]

/-- filters that are not found are passed over -/
theorem sift_skip (B : Str) (p : Nat) {K : Str} (L : FlatSubs) : ∀ (A : FlatSubs),
    (∀ e ∈ A, ¬ e.1 <+: B) → sift B p K false (A ++ L) =
      ((sift B p K false L).1, A ++ (sift B p K false L).2.1, (sift B p K false L).2.2)
  | [], _ => rfl
  | (R, u) :: A, h => by
    rw [List.cons_append, sift, if_neg fun h1 => h (R, u) (by simp) h1.2,
      sift_skip B p L A fun e he => h e (by simp [he])]
    rfl

theorem takeWhile_run {R : Str} {A C : FlatSubs} (hA : ∀ e ∈ A, R <+: e.1) (hC : ∀ e ∈ C, ¬ R <+: e.1) :
    (A ++ C).takeWhile (fun e => R <+: e.1) = A ∧ (A ++ C).dropWhile (fun e => R <+: e.1) = C := by
  have hC' : C.takeWhile (fun e => R <+: e.1) = [] ∧ C.dropWhile (fun e => R <+: e.1) = C := by
    cases C with
    | nil => exact ⟨rfl, rfl⟩
    | cons c C =>
      have := hC c (by simp)
      simp [this]
  rw [List.takeWhile_append_of_pos (by simpa using hA), List.dropWhile_append_of_pos (by simpa using hA), hC'.1,
    hC'.2, List.append_nil]
  exact ⟨rfl, rfl⟩

/-- the group of a node made the new root -/
def groupOf (n : Str × Option FilterObject × SNode) : Group :=
  match n.2.1 with
  | some f => (f.offset, (f.str, n.1) :: content f.str n.2.2)
  | none => (0, [])

/-- a node to be made the new root is in order -/
def LiftOk (n : Str × Option FilterObject × SNode) : Prop :=
  ∃ f, n.2.1 = some f ∧ IsBitStr f.str ∧ f = newFilter f.str f.offset ∧ Under f.offset f.str n.2.2

theorem under_shift {p : Nat} : ∀ {t : SNode} {P s : Str}, Under p (P ++ s) t → Under (p + P.length) s t
  | .nil, _, _, _ => trivial
  | .node _ none _ _, _, _, h => h.elim
  | .node u (some f) m mm, P, s, ⟨h1, h2, h3, h4, h5, h6⟩ => by
    refine ⟨h1, ?_, h3, ?_, under_shift (by rw [← List.append_assoc]; exact h5), under_shift h6⟩
    · rw [Nat.add_assoc, ← List.length_append]
      exact h2
    · intro e he hp
      rw [← content_shift mm P s] at he
      obtain ⟨e', he', rfl⟩ := List.mem_map.mp he
      refine h4 e' he' ?_
      obtain ⟨c, hc⟩ := (List.prefix_append P s).trans (group_prefix he')
      rw [← hc] at hp ⊢
      simp only [List.drop_left] at hp
      rw [List.append_assoc, List.prefix_append_right_inj]
      exact hp

theorem cut_below {B R S : Str} (h : ¬ CutBy B R) (h1 : ¬ R <+: B) (h2 : R <+: S) : ¬ CutBy B S := by
  rintro (h3 | ⟨h3, -⟩)
  · exact h (Or.inl h3)
  · rcases prefix_or_prefix h2 h3 with h4 | h4
    · exact h1 h4
    · exact h (Or.inr ⟨h4, fun h5 => h1 (h5 ▸ List.prefix_rfl)⟩)

/-- what a search of a chain below the outermost one does -/
def SearchOk (B : Str) (p : Nat) (P : Str) (t : SNode) (first : Bool) (id : List Byte) (rest : FlatSubs) : Prop :=
  if ∃ e ∈ content P t, CutBy B e.1 then t.splaySearch first id = none
  else ∃ us t' l, t.splaySearch first id = some (us, t', l) ∧
    sift B p P first (content P t ++ rest) = (us, content P t' ++ rest, (l.map groupOf).reverse) ∧
    Under p P t' ∧ (∀ e ∈ content P t', e ∈ content P t) ∧ ∀ n ∈ l, LiftOk n

theorem search_under {p : Nat} {id : List Byte} : ∀ (t : SNode) (P : Str) (first : Bool) (rest : FlatSubs),
    t ≠ .nil → Under p P t → P <+: (bitsOf id).drop p → (∀ e ∈ rest, ¬ P <+: e.1) →
    SearchOk ((bitsOf id).drop p) p P t first id rest
  | .nil, _, _, _, h, _, _, _ => absurd rfl h
  | .node _ none _ _, _, _, _, _, h, _, _ => h.elim
  | .node u (some f) m mm, P, first, rest, _, ⟨hb, hf, hne, hc, hm, hmm⟩, hP, hr => by
    have hid := label_at (id := id) hb (Or.inl hne) hP
    rw [← hf] at hid
    generalize hB : (bitsOf id).drop p = B at hP hid
    unfold SearchOk
    rw [splaySearch, hid]
    by_cases hcut : CutBy B (P ++ f.str)
    · rw [if_pos ⟨(P ++ f.str, u), by simp [content], hcut⟩, if_pos hcut]
    rw [if_neg hcut]
    have hrest : ∀ e ∈ content P mm ++ rest, ¬ P ++ f.str <+: e.1 := by
      intro e he
      rcases List.mem_append.mp he with he | he
      · exact hc e he
      · exact fun h => hr e he ((List.prefix_append _ _).trans h)
    by_cases hin : P ++ f.str <+: B
    · rw [decide_eq_true hin]
      -- the rest of the chain holds nothing that the tag cuts
      have hmmc : ¬ ∃ e ∈ content P mm, CutBy B e.1 := by
        rintro ⟨e, he, h | ⟨h, -⟩⟩
        · exact hcut (Or.inl h)
        · exact hc e he (hin.trans h)
      have hsub : SearchOk B p (P ++ f.str) m true id (content P mm ++ rest) ∨ m = .nil := by
        by_cases hmn : m = .nil
        · exact Or.inr hmn
        · exact Or.inl (hB ▸ search_under m (P ++ f.str) true (content P mm ++ rest) hmn hm (hB ▸ hin) hrest)
      -- the search of what is below
      have key : if ∃ e ∈ content (P ++ f.str) m, CutBy B e.1 then
            (if m = .nil then some ([], .nil, []) else m.splaySearch true id) = none
          else ∃ us m' l, (if m = .nil then some ([], .nil, []) else m.splaySearch true id) = some (us, m', l) ∧
            sift B p (P ++ f.str) true (content (P ++ f.str) m ++ (content P mm ++ rest)) =
              (us, content (P ++ f.str) m' ++ (content P mm ++ rest), (l.map groupOf).reverse) ∧
            Under p (P ++ f.str) m' ∧ (∀ e ∈ content (P ++ f.str) m', e ∈ content (P ++ f.str) m) ∧
            ∀ n ∈ l, LiftOk n := by
        by_cases hmn : m = .nil
        · subst hmn
          rw [if_neg (by simp [content]), if_pos rfl]
          refine ⟨[], .nil, [], rfl, ?_, trivial, fun _ h => h, by simp⟩
          simpa [content] using sift_outside B p _ true hrest
        · rw [if_neg hmn]
          exact hsub.resolve_right hmn
      clear hsub
      by_cases hmc : ∃ e ∈ content (P ++ f.str) m, CutBy B e.1
      · rw [if_pos hmc] at key
        rw [key, if_pos]
        obtain ⟨e, he, h⟩ := hmc
        exact ⟨e, by simp [content, he], h⟩
      · rw [if_neg hmc] at key
        obtain ⟨us, m', l, k1, k2, k3, k4, k5⟩ := key
        have hno : ¬ ∃ e ∈ content P (.node u (some f) m mm), CutBy B e.1 := by
          rintro ⟨e, he, h⟩
          simp only [content, List.mem_cons, List.mem_append] at he
          rcases he with rfl | he | he
          · exact hcut h
          · exact hmc ⟨e, he, h⟩
          · exact hmmc ⟨e, he, h⟩
        rw [if_neg hno, k1]
        have hsift : sift B p P first (content P (.node u (some f) m mm) ++ rest) =
            (if first then (u :: us, (P ++ f.str, u) :: (content (P ++ f.str) m' ++ (content P mm ++ rest)),
                (l.map groupOf).reverse)
              else (u :: us, content P mm ++ rest,
                (f.offset, (f.str, u) :: content f.str m') :: (l.map groupOf).reverse)) := by
          rw [content, List.cons_append, sift, if_pos ⟨List.prefix_append _ _, hin⟩, List.append_assoc, k2]
          dsimp only
          obtain ⟨w1, w2⟩ := takeWhile_run (R := P ++ f.str) (A := content (P ++ f.str) m')
            (fun e he => group_prefix he) hrest
          cases first
          · rw [if_neg (by simp), if_neg (by simp), w1, w2, List.map_cons, List.drop_left, content_shift]
            have : f.offset = p + P.length := by rw [hf]; rfl
            rw [this]
          · rfl
        rw [hsift]
        cases first
        · refine ⟨u :: us, mm, l ++ [(u, some f, m')], rfl, ?_, hmm, fun e he => by simp [content, he], ?_⟩
          · simp [groupOf]
          · intro n hn
            rcases List.mem_append.mp hn with hn | hn
            · exact k5 n hn
            · simp only [List.mem_singleton] at hn
              subst hn
              have ho : f.offset = p + P.length := by rw [hf]; rfl
              exact ⟨f, rfl, hb, by rw [ho]; exact hf, by rw [ho]; exact under_shift k3⟩
        · refine ⟨u :: us, .node u (some f) m' mm, l, rfl, ?_, ⟨hb, hf, hne, hc, k3, hmm⟩, ?_, k5⟩
          · simp [content]
          · intro e he
            simp only [content, List.mem_cons, List.mem_append] at he ⊢
            rcases he with he | he | he
            · exact Or.inl he
            · exact Or.inr (Or.inl (k4 e he))
            · exact Or.inr (Or.inr he)
    · rw [decide_eq_false hin]
      have hskip : ∀ e ∈ (P ++ f.str, u) :: content (P ++ f.str) m, ¬ e.1 <+: B := by
        intro e he
        rcases List.mem_cons.mp he with rfl | he
        · exact hin
        · exact fun h => hin ((group_prefix he).trans h)
      have hcutm : ∀ e ∈ (P ++ f.str, u) :: content (P ++ f.str) m, ¬ CutBy B e.1 := by
        intro e he
        rcases List.mem_cons.mp he with rfl | he
        · exact hcut
        · exact cut_below hcut hin (group_prefix he)
      have hsift : sift B p P first (content P (.node u (some f) m mm) ++ rest) =
          ((sift B p P false (content P mm ++ rest)).1,
            (P ++ f.str, u) :: (content (P ++ f.str) m ++ (sift B p P false (content P mm ++ rest)).2.1),
            (sift B p P false (content P mm ++ rest)).2.2) := by
        rw [content, List.cons_append, sift, if_neg fun h => hin h.2, List.append_assoc,
          sift_skip B p _ _ fun e he => hskip e (by simp [he])]
      rw [hsift]
      by_cases hmn : mm = .nil
      · subst hmn
        rw [if_neg (by
          rintro ⟨e, he, h⟩
          simp only [content, List.append_nil] at he
          exact hcutm e he h)]
        refine ⟨[], .node u (some f) m .nil, [], by simp, ?_, ⟨hb, hf, hne, hc, hm, hmm⟩, fun _ h => h, by simp⟩
        simp [content, sift_outside B p rest false hr]
      · have ih := search_under mm P false rest hmn hmm (hB ▸ hP) hr
        rw [hB] at ih
        unfold SearchOk at ih
        by_cases hmc : ∃ e ∈ content P mm, CutBy B e.1
        · rw [if_pos hmc] at ih
          rw [if_pos (by obtain ⟨e, he, h⟩ := hmc; exact ⟨e, by simp [content, he], h⟩)]
          simp [hmn, ih]
        · rw [if_neg hmc] at ih
          obtain ⟨us, mm', l, k1, k2, k3, k4, k5⟩ := ih
          rw [if_neg (by
            rintro ⟨e, he, h⟩
            rw [content, ← List.cons_append] at he
            rcases List.mem_append.mp he with he | he
            · exact hcutm e he h
            · exact hmc ⟨e, he, h⟩)]
          refine ⟨us, .node u (some f) m mm', l, by simp [hmn, k1], ?_,
            ⟨hb, hf, hne, fun e he => hc e (k4 e he), hm, k3⟩, ?_, k5⟩
          · simp [content, k2]
          · intro e he
            simp only [content, List.mem_cons, List.mem_append] at he ⊢
            rcases he with he | he | he
            · exact Or.inl he
            · exact Or.inr (Or.inl he)
            · exact Or.inr (Or.inr (k4 e he))

/-- the foremost filter and what is below it, searched as a group -/
theorem search_group {id : List Byte} {u : Str} {f : FilterObject} {m : SNode} (hb : IsBitStr f.str)
    (hf : f = newFilter f.str f.offset) (hm : Under f.offset f.str m) :
    let B := (bitsOf id).drop f.offset
    let L := (f.str, u) :: content f.str m
    if ∃ e ∈ L, CutBy B e.1 then
      f.matchID id = none ∨ f.matchID id = some true ∧ m ≠ .nil ∧ m.splaySearch true id = none
    else (f.matchID id = some false ∧ (sift B f.offset [] true L).1 = []) ∨
      f.matchID id = some true ∧ ∃ us m' l,
        (if m = .nil then some ([], .nil, []) else m.splaySearch true id) = some (us, m', l) ∧
        sift B f.offset [] true L = (u :: us, (f.str, u) :: content f.str m', (l.map groupOf).reverse) ∧
        Under f.offset f.str m' ∧ ∀ n ∈ l, LiftOk n := by
  intro B L
  have hid := label_at (id := id) (p := f.offset) (P := []) hb (Or.inr rfl) List.nil_prefix
  rw [List.nil_append, List.length_nil, Nat.add_zero, ← hf] at hid
  change f.matchID id = if CutBy B f.str then none else some (decide (f.str <+: B)) at hid
  by_cases hcut : CutBy B f.str
  · rw [if_pos ⟨(f.str, u), by simp [L], hcut⟩, hid, if_pos hcut]
    exact Or.inl rfl
  rw [if_neg hcut] at hid
  by_cases hin : f.str <+: B
  · rw [decide_eq_true hin] at hid
    rw [hid]
    have key : if ∃ e ∈ content f.str m, CutBy B e.1 then
          (if m = .nil then some ([], .nil, []) else m.splaySearch true id) = none ∧ m ≠ .nil
        else ∃ us m' l, (if m = .nil then some ([], .nil, []) else m.splaySearch true id) = some (us, m', l) ∧
          sift B f.offset f.str true (content f.str m) = (us, content f.str m', (l.map groupOf).reverse) ∧
          Under f.offset f.str m' ∧ ∀ n ∈ l, LiftOk n := by
      by_cases hmn : m = .nil
      · subst hmn
        rw [if_neg (by simp [content]), if_pos rfl]
        exact ⟨[], .nil, [], rfl, rfl, trivial, by simp⟩
      · rw [if_neg hmn]
        have h := search_under m f.str true [] hmn hm hin (by simp)
        unfold SearchOk at h
        change if ∃ e ∈ content f.str m, CutBy B e.1 then _ else _ at h
        by_cases hmc : ∃ e ∈ content f.str m, CutBy B e.1
        · rw [if_pos hmc] at h ⊢
          exact ⟨h, hmn⟩
        · rw [if_neg hmc] at h ⊢
          obtain ⟨us, t', l, k1, k2, k3, -, k5⟩ := h
          exact ⟨us, t', l, k1, by simpa using k2, k3, k5⟩
    by_cases hmc : ∃ e ∈ content f.str m, CutBy B e.1
    · rw [if_pos hmc] at key
      rw [if_pos (by obtain ⟨e, he, h⟩ := hmc; exact ⟨e, by simp [L, he], h⟩)]
      refine Or.inr ⟨rfl, key.2, ?_⟩
      have := key.1
      rwa [if_neg key.2] at this
    · rw [if_neg hmc] at key
      obtain ⟨us, m', l, k1, k2, k3, k4⟩ := key
      rw [if_neg (by
        rintro ⟨e, he, h⟩
        rcases List.mem_cons.mp he with rfl | he
        · exact hcut h
        · exact hmc ⟨e, he, h⟩)]
      refine Or.inr ⟨rfl, us, m', l, k1, ?_, k3, k4⟩
      rw [sift, if_pos ⟨List.nil_prefix, hin⟩, k2]
      rfl
  · rw [decide_eq_false hin] at hid
    have hcutm : ∀ e ∈ L, ¬ CutBy B e.1 := by
      intro e he
      rcases List.mem_cons.mp he with rfl | he
      · exact hcut
      · exact cut_below hcut hin (group_prefix he)
    rw [if_neg (by rintro ⟨e, he, h⟩; exact hcutm e he h)]
    refine Or.inl ⟨hid, ?_⟩
    rw [sift, if_neg fun h => hin h.2]
    have := sift_skip B f.offset (K := []) [] (content f.str m) fun e he h => hin ((group_prefix he).trans h)
    rw [List.append_nil] at this
    rw [this]
    rfl

theorem find_ranked {id : List Byte} : ∀ (t : SNode) (first : Bool), t ≠ .nil → Ranked t →
    match t.splaySearch first id with
    | none => Rack.find (bitsOf id) first t.rack = none
    | some (us, t', l) => Rack.find (bitsOf id) first t.rack = some (us, t'.rack, (l.map groupOf).reverse) ∧
        Ranked t' ∧ (∀ n ∈ l, LiftOk n) ∧ (t' = .nil → l ≠ [])
  | .nil, _, h, _ => absurd rfl h
  | .node _ none _ _, _, _, h => h.elim
  | .node u (some f) m mm, first, _, ⟨hb, hf, hm, hmm⟩ => by
    have hg := search_group (id := id) (u := u) hb hf hm
    dsimp only at hg
    rw [splaySearch, rack, Rack.find]
    by_cases hcut : ∃ e ∈ (f.str, u) :: content f.str m, CutBy ((bitsOf id).drop f.offset) e.1
    · rw [if_pos hcut] at hg ⊢
      rcases hg with h | ⟨h1, h2, h3⟩
      · rw [h]
      · rw [h1]
        simp [h2, h3]
    · rw [if_neg hcut] at hg ⊢
      rcases hg with ⟨h1, h2⟩ | ⟨h1, us, m', l, k1, k2, k3, k4⟩
      · rw [h1]
        dsimp only
        rw [if_pos h2]
        by_cases hmn : mm = .nil
        · subst hmn
          simp only [if_true]
          exact ⟨rfl, ⟨hb, hf, hm, trivial⟩, by simp, by simp⟩
        · rw [if_neg hmn]
          have ih := find_ranked (id := id) mm false hmn hmm
          cases hs : mm.splaySearch false id with
          | none =>
            rw [hs] at ih
            simp only at ih ⊢
            rw [ih]
            rfl
          | some q =>
            obtain ⟨us, mm', l⟩ := q
            rw [hs] at ih
            simp only at ih ⊢
            obtain ⟨i1, i2, i3, -⟩ := ih
            rw [i1]
            exact ⟨rfl, ⟨hb, hf, hm, i2⟩, i3, by simp⟩
      · rw [h1]
        dsimp only
        rw [k1, k2]
        cases first
        · simp only [Bool.false_eq_true, if_false]
          refine ⟨by simp [groupOf], hmm, ?_, by simp⟩
          intro n hn
          rcases List.mem_append.mp hn with hn | hn
          · exact k4 n hn
          · simp only [List.mem_singleton] at hn
            subst hn
            exact ⟨f, rfl, hb, hf, k3⟩
        · simp only [if_true]
          exact ⟨by simp [rack], ⟨hb, hf, k3, hmm⟩, k4, by simp⟩

theorem attach_ranked : ∀ (l : List (Str × Option FilterObject × SNode)) (t : SNode), Ranked t →
    (∀ n ∈ l, LiftOk n) →
    Ranked (l.foldl attach t) ∧ (l.foldl attach t).rack = (l.map groupOf).reverse ++ t.rack ∧
    (t ≠ .nil ∨ l ≠ [] → l.foldl attach t ≠ .nil)
  | [], t, ht, _ => ⟨ht, rfl, fun h => h.resolve_right (by simp)⟩
  | n :: l, t, ht, h => by
    obtain ⟨f, hn, h1, h2, h3⟩ := h n (by simp)
    obtain ⟨u, g, m⟩ := n
    simp only at hn h3
    subst hn
    have hr : Ranked (attach t (u, some f, m)) := ⟨h1, h2, h3, ht⟩
    obtain ⟨a1, a2, a3⟩ := attach_ranked l _ hr fun n hn => h n (by simp [hn])
    refine ⟨a1, ?_, fun _ => a3 (Or.inl (by simp [attach]))⟩
    rw [List.foldl_cons, a2]
    simp [attach, rack, groupOf]

/-- a search of a tree is a search of its groups -/
theorem search_ranked {t : SNode} (id : List Byte) (hn : t ≠ .nil) (ht : Ranked t) :
    (t.search id).map (fun a => (a.1, a.2.rack)) = t.rack.search id ∧
    ∀ us t', t.search id = some (us, t') → t' ≠ .nil ∧ Ranked t' := by
  have h := find_ranked (id := id) t true hn ht
  unfold SNode.search Rack.search
  cases hs : t.splaySearch true id with
  | none =>
    rw [hs] at h
    simp only at h
    rw [h]
    exact ⟨rfl, by simp⟩
  | some q =>
    obtain ⟨us, t', l⟩ := q
    rw [hs] at h
    simp only at h
    obtain ⟨h1, h2, h3, h4⟩ := h
    obtain ⟨a1, a2, a3⟩ := attach_ranked l t' h2 h3
    rw [h1]
    refine ⟨by simp [a2], ?_⟩
    intro us' t'' he
    simp only [Option.some.injEq, Prod.mk.injEq] at he
    obtain ⟨-, rfl⟩ := he
    refine ⟨a3 ?_, a1⟩
    by_cases h : t' = .nil
    · exact Or.inr (h4 h)
    · exact Or.inl h

end Gosstrak
