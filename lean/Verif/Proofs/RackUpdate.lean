import Verif.Proofs.RackSearch

/-! Additions to and deletions from the groups of a splay tree. -/
namespace Gosstrak

open SNode

/-! ### additions -/

theorem put_end (fs uri : Str) {K : Str} : ∀ {rest : FlatSubs}, (∀ e ∈ rest, ¬ K <+: e.1) →
    put fs uri K rest = (fs, uri) :: rest
  | [], _ => rfl
  | (R, v) :: L, h => by rw [put, if_pos (h (R, v) (by simp))]

theorem put_skip (fs uri : Str) {K : Str} (L : FlatSubs) : ∀ {A : FlatSubs},
    (∀ e ∈ A, K <+: e.1 ∧ ¬ e.1 <+: fs) → put fs uri K (A ++ L) = A ++ put fs uri K L
  | [], _ => rfl
  | (R, v) :: A, h => by
    have hR := h (R, v) (by simp)
    rw [List.cons_append, put, if_neg (by simpa using hR.1), if_neg (fun h1 => hR.2 (by simp [h1])),
      if_neg hR.2, put_skip fs uri L fun e he => h e (by simp [he])]
    rfl

theorem hasPrefix_true {s p : Str} : hasPrefix s p = true ↔ p <+: s := by
  unfold hasPrefix
  exact List.isPrefixOf_iff_prefix

theorem add_under {p : Nat} {uri : Str} : ∀ (t : SNode) (P g : Str) (rest : FlatSubs), t ≠ .nil → Under p P t →
    g ≠ [] → IsBitStr g → (∀ e ∈ rest, ¬ P <+: e.1) →
    ∃ t', t.add g uri = some t' ∧ content P t' ++ rest = put (P ++ g) uri P (content P t ++ rest) ∧
      Under p P t' ∧ t' ≠ .nil ∧ ∀ e ∈ content P t', e.1 = P ++ g ∨ ∃ e0 ∈ content P t, e0.1 = e.1
  | .nil, _, _, _, h, _, _, _, _ => absurd rfl h
  | .node _ none _ _, _, _, _, _, h, _, _, _ => h.elim
  | .node u (some f) m mm, P, g, rest, _, ⟨hb, hf, hne, hc, hm, hmm⟩, hg, hgb, hr => by
    have hrest : ∀ e ∈ content P mm ++ rest, ¬ P ++ f.str <+: e.1 := by
      intro e he
      rcases List.mem_append.mp he with he | he
      · exact hc e he
      · exact fun h => hr e he ((List.prefix_append _ _).trans h)
    have hsize : f.size = f.str.length := by rw [hf]; rfl
    have hoff : f.offset = p + P.length := by rw [hf]; rfl
    have hPR : P <+: P ++ f.str := List.prefix_append _ _
    rw [add]
    by_cases hpre : f.str <+: g
    · rw [if_pos (hasPrefix_true.mpr hpre)]
      by_cases heq : g = f.str
      · rw [if_pos heq]
        refine ⟨_, rfl, ?_, ⟨hb, hf, hne, hc, hm, hmm⟩, by simp, ?_⟩
        · have hu : (if u ≠ uri then uri else u) = uri := by by_cases h : u = uri <;> simp [h]
          rw [hu, content, content, List.cons_append, List.cons_append, put, if_neg (fun h => h hPR),
            if_pos (by rw [heq])]
        · intro e he
          rw [content, List.mem_cons] at he
          rcases he with rfl | he
          · exact Or.inl (by rw [heq])
          · exact Or.inr ⟨e, by rw [content]; exact List.mem_cons_of_mem _ he, rfl⟩
      · rw [if_neg heq]
        obtain ⟨g', rfl⟩ := hpre
        have hg' : g' ≠ [] := fun h => heq (by rw [h, List.append_nil])
        have hgb' : IsBitStr g' := fun c hc => hgb c (by simp [hc])
        rw [hsize, List.drop_left]
        have hput : put (P ++ (f.str ++ g')) uri P (content P (.node u (some f) m mm) ++ rest) =
            (P ++ f.str, u) :: put (P ++ f.str ++ g') uri (P ++ f.str) (content (P ++ f.str) m ++ (content P mm ++ rest)) := by
          rw [content, List.cons_append, put, if_neg (fun h => h hPR),
            if_neg (by simpa using hg'), if_pos (by simp),
            List.append_assoc, List.append_assoc]
        rw [hput]
        by_cases hmn : m = .nil
        · subst hmn
          rw [if_pos rfl]
          refine ⟨_, rfl, ?_, ⟨hb, hf, hne, hc, ⟨hgb', ?_, hg', by simp [content], trivial, trivial⟩, hmm⟩, by simp, ?_⟩
          · have h1 : content (P ++ f.str) SNode.nil = [] := rfl
            rw [h1, List.nil_append, put_end _ _ hrest]
            simp [content, newFilter]
          · simp [newFilter, hoff, Nat.add_assoc]
          · intro e he
            simp only [content, List.mem_cons, List.mem_append, List.not_mem_nil, or_false] at he ⊢
            rcases he with rfl | rfl | he
            · exact Or.inr ⟨_, Or.inl rfl, rfl⟩
            · exact Or.inl (by simp [newFilter])
            · exact Or.inr ⟨e, Or.inr (Or.inr he), rfl⟩
        · rw [if_neg hmn]
          obtain ⟨m', k1, k2, k3, k4, k5⟩ := add_under (uri := uri) m (P ++ f.str) g' (content P mm ++ rest) hmn hm hg' hgb' hrest
          rw [k1]
          refine ⟨_, rfl, ?_, ⟨hb, hf, hne, hc, k3, hmm⟩, by simp, ?_⟩
          · rw [content, List.cons_append, List.append_assoc, k2]
          · intro e he
            simp only [content, List.mem_cons, List.mem_append] at he ⊢
            rcases he with rfl | he | he
            · exact Or.inr ⟨_, Or.inl rfl, rfl⟩
            · rcases k5 e he with h | ⟨e0, h1, h2⟩
              · exact Or.inl (by rw [h, List.append_assoc])
              · exact Or.inr ⟨e0, Or.inr (Or.inl h1), h2⟩
            · exact Or.inr ⟨e, Or.inr (Or.inr he), rfl⟩
    · rw [if_neg fun h => hpre (hasPrefix_true.mp h)]
      have hRg : ¬ P ++ f.str <+: P ++ g := fun h => hpre ((List.prefix_append_right_inj P).mp h)
      have hput : put (P ++ g) uri P (content P (.node u (some f) m mm) ++ rest) =
          (P ++ f.str, u) :: (content (P ++ f.str) m ++ put (P ++ g) uri P (content P mm ++ rest)) := by
        have := put_skip (P ++ g) uri (K := P) (content P mm ++ rest) (A := (P ++ f.str, u) :: content (P ++ f.str) m) (by
          intro e he
          rcases List.mem_cons.mp he with rfl | he
          · exact ⟨hPR, hRg⟩
          · exact ⟨hPR.trans (group_prefix he), fun h => hRg ((group_prefix he).trans h)⟩)
        rw [content, List.cons_append, List.append_assoc, ← List.cons_append, this]
        rfl
      rw [hput]
      by_cases hmn : mm = .nil
      · subst hmn
        rw [if_pos rfl]
        refine ⟨_, rfl, ?_, ⟨hb, hf, hne, ?_, hm, ⟨hgb, ?_, hg, by simp [content], trivial, trivial⟩⟩, by simp, ?_⟩
        · have h1 : content P SNode.nil = [] := rfl
          rw [h1, List.nil_append, put_end _ _ hr]
          simp [content, newFilter]
        · intro e he
          simp only [content, List.mem_cons, List.mem_append, List.not_mem_nil, or_false] at he
          subst he
          simpa [newFilter] using hpre
        · simp [newFilter, hoff]
        · intro e he
          simp only [content, List.mem_cons, List.mem_append, List.not_mem_nil, or_false] at he ⊢
          rcases he with rfl | he | rfl
          · exact Or.inr ⟨_, Or.inl rfl, rfl⟩
          · exact Or.inr ⟨e, Or.inr he, rfl⟩
          · exact Or.inl (by simp [newFilter])
      · rw [if_neg hmn]
        obtain ⟨mm', k1, k2, k3, k4, k5⟩ := add_under (uri := uri) mm P g rest hmn hmm hg hgb hr
        rw [k1]
        refine ⟨_, rfl, ?_, ⟨hb, hf, hne, ?_, hm, k3⟩, by simp, ?_⟩
        · rw [content, List.cons_append, List.append_assoc, k2]
        · intro e he
          rcases k5 e he with h | ⟨e0, h1, h2⟩
          · rw [h]; exact hRg
          · rw [← h2]; exact hc e0 h1
        · intro e he
          simp only [content, List.mem_cons, List.mem_append] at he ⊢
          rcases he with rfl | he | he
          · exact Or.inr ⟨_, Or.inl rfl, rfl⟩
          · exact Or.inr ⟨e, Or.inr (Or.inl he), rfl⟩
          · rcases k5 e he with h | ⟨e0, h1, h2⟩
            · exact Or.inl h
            · exact Or.inr ⟨e0, Or.inr (Or.inr h1), h2⟩

/-- an addition to a tree is an addition to its groups -/
theorem add_ranked {fs uri : Str} (hfb : IsBitStr fs) : ∀ (t : SNode), t ≠ .nil → Ranked t →
    ∃ t', t.add fs uri = some t' ∧ t'.rack = t.rack.add fs uri ∧ t' ≠ .nil ∧ Ranked t'
  | .nil, h, _ => absurd rfl h
  | .node _ none _ _, _, h => h.elim
  | .node u (some f) m mm, _, ⟨hb, hf, hm, hmm⟩ => by
    have hsize : f.size = f.str.length := by rw [hf]; rfl
    have htakes : Group.Takes (f.offset, (f.str, u) :: content f.str m) fs ↔ f.str <+: fs := by
      simp [Group.Takes]
    rw [add, rack, Rack.add]
    by_cases hpre : f.str <+: fs
    · rw [if_pos (hasPrefix_true.mpr hpre), if_pos (htakes.mpr hpre)]
      by_cases heq : fs = f.str
      · rw [if_pos heq]
        refine ⟨_, rfl, ?_, by simp, ⟨hb, hf, hm, hmm⟩⟩
        have hu : (if u ≠ uri then uri else u) = uri := by by_cases h : u = uri <;> simp [h]
        rw [hu, rack, put, if_neg (by simp), if_pos heq.symm]
      · rw [if_neg heq]
        obtain ⟨g, rfl⟩ := hpre
        have hg : g ≠ [] := fun h => heq (by rw [h, List.append_nil])
        have hgb : IsBitStr g := fun c hc => hfb c (by simp [hc])
        rw [hsize, List.drop_left]
        have hput : put (f.str ++ g) uri [] ((f.str, u) :: content f.str m) =
            (f.str, u) :: put (f.str ++ g) uri f.str (content f.str m) := by
          rw [put, if_neg (by simp), if_neg (by simpa using hg), if_pos (by simp)]
        rw [hput]
        by_cases hmn : m = .nil
        · subst hmn
          rw [if_pos rfl]
          refine ⟨_, rfl, ?_, by simp, ⟨hb, hf, ⟨hgb, ?_, hg, by simp [content], trivial, trivial⟩, hmm⟩⟩
          · simp [rack, content, newFilter, put]
          · simp [newFilter]
        · rw [if_neg hmn]
          obtain ⟨m', k1, k2, k3, k4, -⟩ := add_under (uri := uri) m f.str g [] hmn hm hg hgb (by simp)
          rw [List.append_nil, List.append_nil] at k2
          rw [k1]
          refine ⟨_, rfl, ?_, by simp, ⟨hb, hf, k3, hmm⟩⟩
          rw [rack, k2]
    · rw [if_neg fun h => hpre (hasPrefix_true.mp h), if_neg fun h => hpre (htakes.mp h)]
      by_cases hmn : mm = .nil
      · subst hmn
        rw [if_pos rfl, if_pos (show SNode.nil.rack = [] from rfl)]
        refine ⟨_, rfl, ?_, by simp, ⟨hb, hf, hm, ⟨hfb, ?_, trivial, trivial⟩⟩⟩
        · simp [rack, content, newFilter]
        · simp [newFilter]
      · rw [if_neg hmn]
        obtain ⟨mm', k1, k2, k3, k4⟩ := add_ranked hfb mm hmn hmm
        have hne : mm.rack ≠ [] := by
          cases mm with
          | nil => exact absurd rfl hmn
          | node u' f' m' mm' =>
            cases f' with
            | none => exact hmm.elim
            | some f' => simp [rack]
        rw [if_neg hne, k1]
        exact ⟨_, rfl, by rw [rack, k2], by simp, ⟨hb, hf, hm, k4⟩⟩

/-! ### deletions -/

theorem forked_left {fs : Str} {A : FlatSubs} (C : FlatSubs) (h : ∀ e ∈ A, e.1 ≠ fs) :
    forked fs (A ++ C) ↔ forked fs C := by
  unfold forked
  rw [List.dropWhile_append_of_pos (by simpa using h)]

theorem map_other {fs : Str} {A : FlatSubs} (h : ∀ e ∈ A, e.1 ≠ fs) :
    (A.map fun e => if e.1 = fs then (fs, []) else e) = A := by
  induction A with
  | nil => rfl
  | cons a A ih =>
    rw [List.map_cons, if_neg (h a (by simp)), ih fun e he => h e (by simp [he])]

theorem filter_other {fs : Str} {A : FlatSubs} (h : ∀ e ∈ A, e.1 ≠ fs) :
    (A.filter fun e => e.1 ≠ fs) = A := List.filter_eq_self.mpr (by simpa using h)

theorem takeOut_left {fs : Str} {A : FlatSubs} (C : FlatSubs) (h : ∀ e ∈ A, e.1 ≠ fs) :
    takeOut fs (A ++ C) = A ++ takeOut fs C := by
  unfold takeOut
  by_cases hf : forked fs C
  · rw [if_pos ((forked_left C h).mpr hf), if_pos hf, List.map_append, map_other h]
  · rw [if_neg fun h1 => hf ((forked_left C h).mp h1), if_neg hf, List.filter_append, filter_other h]

theorem forked_nil (fs : Str) : ¬ forked fs [] := fun h => h

theorem dropWhile_none {fs : Str} {D : FlatSubs} (h : ∀ e ∈ D, e.1 ≠ fs) :
    D.dropWhile (fun e => e.1 ≠ fs) = [] := by
  have := List.dropWhile_append_of_pos (p := fun e : Str × Str => decide (e.1 ≠ fs)) (l₁ := D) (l₂ := []) (by simpa using h)
  simpa using this

theorem takeWhile_stop {R : Str} {C : FlatSubs} (hC : ∀ e ∈ C, ¬ R <+: e.1) : ∀ (A : FlatSubs),
    (A ++ C).takeWhile (fun e => R <+: e.1) = A.takeWhile (fun e => R <+: e.1)
  | [] => by
    have := (takeWhile_run (A := []) (by simp) hC).1
    simpa using this
  | a :: A => by
    rw [List.cons_append, List.takeWhile_cons, List.takeWhile_cons, takeWhile_stop hC A]

theorem forked_right {fs : Str} {D : FlatSubs} (h : ∀ e ∈ D, ¬ fs <+: e.1) : ∀ (C : FlatSubs),
    forked fs (C ++ D) ↔ forked fs C
  | [] => by
    unfold forked
    rw [List.nil_append, dropWhile_none fun e he h1 => h e he (h1 ▸ List.prefix_rfl)]
    exact Iff.rfl
  | c :: C => by
    by_cases hc : c.1 = fs
    · unfold forked
      rw [List.cons_append, List.dropWhile_cons_of_neg (by simp [hc]), List.dropWhile_cons_of_neg (by simp [hc])]
      simp only [List.drop_succ_cons, List.drop_zero]
      rw [takeWhile_stop h]
    · have h1 := forked_left (fs := fs) (A := [c]) (C ++ D) (by simpa using hc)
      have h2 := forked_left (fs := fs) (A := [c]) C (by simpa using hc)
      exact h1.trans ((forked_right h C).trans h2.symm)

theorem takeOut_right {fs : Str} {D : FlatSubs} (C : FlatSubs) (h : ∀ e ∈ D, ¬ fs <+: e.1) :
    takeOut fs (C ++ D) = takeOut fs C ++ D := by
  have hD : ∀ e ∈ D, e.1 ≠ fs := fun e he h1 => h e he (h1 ▸ List.prefix_rfl)
  unfold takeOut
  by_cases hf : forked fs C
  · rw [if_pos ((forked_right h C).mpr hf), if_pos hf, List.map_append, map_other hD]
  · rw [if_neg fun h1 => hf ((forked_right h C).mp h1), if_neg hf, List.filter_append, filter_other hD]

/-- deleting the foremost filter of a list that is all behind it -/
theorem takeOut_head {fs u : Str} {M : FlatSubs} (h : ∀ e ∈ M, fs <+: e.1 ∧ e.1 ≠ fs) :
    takeOut fs ((fs, u) :: M) =
      if Parted M then (fs, []) :: M else M := by
  have hM : ∀ e ∈ M, e.1 ≠ fs := fun e he => (h e he).2
  have hf : forked fs ((fs, u) :: M) ↔ Parted M := by
    unfold forked
    rw [List.dropWhile_cons_of_neg (by simp)]
    simp only [List.drop_succ_cons, List.drop_zero]
    have := (takeWhile_run (R := fs) (A := M) (C := []) (fun e he => (h e he).1) (by simp)).1
    rw [List.append_nil] at this
    rw [this]
  unfold takeOut
  by_cases hfk : forked fs ((fs, u) :: M)
  · rw [if_pos hfk, if_pos (hf.mp hfk), List.map_cons, if_pos rfl, map_other hM]
  · rw [if_neg hfk, if_neg fun h1 => hfk (hf.mpr h1), List.filter_cons_of_neg (by simp), filter_other hM]

theorem takeOut_names {fs : Str} {L : FlatSubs} {e : Str × Str} (he : e ∈ takeOut fs L) :
    ∃ e0 ∈ L, e0.1 = e.1 := by
  unfold takeOut at he
  split at he
  · obtain ⟨a, ha, rfl⟩ := List.mem_map.mp he
    refine ⟨a, ha, ?_⟩
    by_cases h : a.1 = fs <;> simp [h]
  · exact ⟨e, (List.mem_filter.mp he).1, rfl⟩

/-- 255-257, 265-267: a leaf with the filter disappears, otherwise the deletion goes on there -/
def dropFrom (t : SNode) (g : Str) : Option SNode :=
  match t.isLeafWith g with
  | none => none
  | some true => some .nil
  | some false => t.delete g

theorem takeOut_nil (fs : Str) : takeOut fs [] = [] := by
  unfold takeOut
  split <;> rfl

/-- what a deletion at the node of the filter itself does to the list of the chain -/
theorem delete_here {p : Nat} {P : Str} {u : Str} {f : FilterObject} {m mm : SNode}
    (hb : IsBitStr f.str) (hf : f = newFilter f.str (p + P.length)) (hm : Under p (P ++ f.str) m)
    (hmm : Under p P mm) (hne : f.str ≠ []) (hc : ∀ e ∈ content P mm, ¬ P ++ f.str <+: e.1)
    (hleaf : ¬ (m = .nil ∧ mm = .nil)) :
    ∃ t', (SNode.node u (some f) m mm).delete f.str = some t' ∧ t' ≠ .nil ∧
      content P t' = takeOut (P ++ f.str) (content P (.node u (some f) m mm)) ∧ Under p P t' := by
  have htake : takeOut (P ++ f.str) (content P (.node u (some f) m mm)) =
      (if Parted (content (P ++ f.str) m) then (P ++ f.str, []) :: content (P ++ f.str) m
        else content (P ++ f.str) m) ++ content P mm := by
    rw [content, ← List.cons_append, takeOut_right _ hc, takeOut_head fun e he => under_content hm e he]
  rw [htake, SNode.delete.eq_def]
  dsimp only
  rw [if_pos (hasPrefix_true.mpr List.prefix_rfl), if_pos rfl]
  cases m with
  | nil =>
    cases mm with
    | nil => exact absurd ⟨rfl, rfl⟩ hleaf
    | node u2 f2 m2 mm2 =>
      refine ⟨_, rfl, by simp, ?_, hmm⟩
      rw [if_neg (show ¬ Parted (content (P ++ f.str) SNode.nil) from fun h => h)]
      rfl
  | node u1 f1 m1 mm1 =>
    cases f1 with
    | none => exact hm.elim
    | some f1 =>
      obtain ⟨g1, g2, g3, g4, g5, g6⟩ := hm
      by_cases hmn : mm1 = .nil
      · subst hmn
        rw [if_neg (by
          rintro ⟨x, hx, h⟩
          have h1 : content (P ++ f.str) SNode.nil = [] := rfl
          rw [h1, List.append_nil] at hx
          exact h (group_prefix hx))]
        simp only [ne_eq, not_true_eq_false, if_false, Option.map_some]
        refine ⟨_, rfl, by simp, ?_, ?_⟩
        · simp [content, newFilter]
        · refine ⟨fun c hc => ?_, ?_, ?_, ?_, ?_, hmm⟩
          · simp only [newFilter, List.mem_append] at hc
            rcases hc with hc | hc
            · exact hb c hc
            · exact g1 c hc
          · have : f.offset = p + P.length := by rw [hf]; rfl
            simp [newFilter, this]
          · simp [newFilter, hne]
          · intro e he h
            refine hc e he (List.IsPrefix.trans ?_ h)
            simp [newFilter]
          · simpa [newFilter] using g5
      · have hp : Parted (content (P ++ f.str) (.node u1 (some f1) m1 mm1)) := by
          cases mm1 with
          | nil => exact absurd rfl hmn
          | node u3 f3 m3 mm3 =>
            cases f3 with
            | none => exact g6.elim
            | some f3 =>
              have hin : (P ++ f.str ++ f3.str, u3) ∈ content (P ++ f.str) (.node u3 (some f3) m3 mm3) := by
                simp [content]
              exact ⟨_, List.mem_append_right _ hin, g4 _ hin⟩
        rw [if_pos hp]
        simp only [ne_eq, hmn, not_false_eq_true, if_true]
        exact ⟨_, rfl, by simp, rfl, ⟨hb, hf, hne, hc, ⟨g1, g2, g3, g4, g5, g6⟩, hmm⟩⟩

theorem delete_under {p : Nat} : ∀ (t : SNode) (P g : Str), t ≠ .nil → Under p P t → g ≠ [] →
    ∃ t', dropFrom t g = some t' ∧ content P t' = takeOut (P ++ g) (content P t) ∧ Under p P t'
  | .nil, _, _, h, _, _ => absurd rfl h
  | .node _ none _ _, _, _, _, h, _ => h.elim
  | .node u (some f) m mm, P, g, _, ⟨hb, hf, hne, hc, hm, hmm⟩, hg => by
    have hsize : f.size = f.str.length := by rw [hf]; rfl
    unfold dropFrom isLeafWith
    by_cases hleaf : g = f.str ∧ m = .nil ∧ mm = .nil
    · obtain ⟨rfl, rfl, rfl⟩ := hleaf
      simp only [and_self, decide_true]
      refine ⟨_, rfl, ?_, trivial⟩
      have := takeOut_head (fs := P ++ f.str) (u := u) (M := []) (by simp)
      rw [if_neg (show ¬ Parted [] from fun h => h)] at this
      exact this.symm
    dsimp only
    rw [decide_eq_false hleaf]
    dsimp only
    by_cases heq : g = f.str
    · subst heq
      obtain ⟨t', k1, -, k2, k3⟩ := delete_here (u := u) hb hf hm hmm hne hc fun h => hleaf ⟨rfl, h⟩
      exact ⟨t', k1, k2, k3⟩
    rw [SNode.delete.eq_def]
    dsimp only
    by_cases hpre : f.str <+: g
    · rw [if_pos (hasPrefix_true.mpr hpre), if_neg heq]
      obtain ⟨g', rfl⟩ := hpre
      have hg' : g' ≠ [] := fun h => heq (by rw [h, List.append_nil])
      have htake : takeOut (P ++ (f.str ++ g')) (content P (.node u (some f) m mm)) =
          (P ++ f.str, u) :: (takeOut (P ++ f.str ++ g') (content (P ++ f.str) m) ++ content P mm) := by
        rw [content, ← List.append_assoc P f.str g']
        have h1 := takeOut_left (fs := P ++ f.str ++ g') (A := [(P ++ f.str, u)])
          (content (P ++ f.str) m ++ content P mm) (by simpa using hg')
        have h2 := takeOut_right (fs := P ++ f.str ++ g') (content (P ++ f.str) m) (D := content P mm)
          fun e he h => hc e he ((List.prefix_append _ _).trans h)
        rw [h2] at h1
        exact h1
      rw [htake, hsize, List.drop_left]
      by_cases hmn : m = .nil
      · subst hmn
        rw [if_pos rfl]
        refine ⟨_, rfl, ?_, ⟨hb, hf, hne, hc, hm, hmm⟩⟩
        have h1 : content (P ++ f.str) SNode.nil = [] := rfl
        rw [h1, takeOut_nil, content, h1]
      · rw [if_neg hmn]
        obtain ⟨m', k1, k2, k3⟩ := delete_under m (P ++ f.str) g' hmn hm hg'
        unfold dropFrom at k1
        have hres : ∃ t', t' = SNode.node u (some f) m' mm ∧ (match m.isLeafWith g' with
            | none => none
            | some true => some (SNode.node u (some f) .nil mm)
            | some false => (m.delete g').map fun m' => .node u (some f) m' mm) = some t' := by
          revert k1
          cases m.isLeafWith g' with
          | none => simp
          | some c =>
            cases c
            · intro k1
              simp only at k1 ⊢
              rw [k1]
              exact ⟨_, rfl, rfl⟩
            · intro k1
              simp only [Option.some.injEq] at k1 ⊢
              exact ⟨_, rfl, by rw [k1]⟩
        obtain ⟨t', rfl, h2⟩ := hres
        exact ⟨_, h2, by rw [content, k2], ⟨hb, hf, hne, hc, k3, hmm⟩⟩
    · rw [if_neg fun h => hpre (hasPrefix_true.mp h)]
      have hRg : ¬ P ++ f.str <+: P ++ g := fun h => hpre ((List.prefix_append_right_inj P).mp h)
      have htake : takeOut (P ++ g) (content P (.node u (some f) m mm)) =
          (P ++ f.str, u) :: (content (P ++ f.str) m ++ takeOut (P ++ g) (content P mm)) := by
        rw [content, ← List.cons_append, takeOut_left _ (by
          intro e he h
          rcases List.mem_cons.mp he with rfl | he
          · exact hRg (h ▸ List.prefix_rfl)
          · exact hRg (h ▸ group_prefix he))]
        rfl
      rw [htake]
      by_cases hmn : mm = .nil
      · subst hmn
        rw [if_pos rfl]
        refine ⟨_, rfl, ?_, ⟨hb, hf, hne, hc, hm, hmm⟩⟩
        have h1 : content P SNode.nil = [] := rfl
        rw [h1, takeOut_nil, content, h1]
      · rw [if_neg hmn]
        obtain ⟨mm', k1, k2, k3⟩ := delete_under mm P g hmn hmm hg
        unfold dropFrom at k1
        have hres : ∃ t', t' = SNode.node u (some f) m mm' ∧ (match mm.isLeafWith g with
            | none => none
            | some true => some (SNode.node u (some f) m .nil)
            | some false => (mm.delete g).map fun mm' => .node u (some f) m mm') = some t' := by
          revert k1
          cases mm.isLeafWith g with
          | none => simp
          | some c =>
            cases c
            · intro k1
              simp only at k1 ⊢
              rw [k1]
              exact ⟨_, rfl, rfl⟩
            · intro k1
              simp only [Option.some.injEq] at k1 ⊢
              exact ⟨_, rfl, by rw [k1]⟩
        obtain ⟨t', rfl, h2⟩ := hres
        refine ⟨_, h2, by rw [content, k2], ⟨hb, hf, hne, ?_, hm, k3⟩⟩
        intro e he
        rw [k2] at he
        obtain ⟨e0, h3, h4⟩ := takeOut_names he
        rw [← h4]
        exact hc e0 h3

theorem rack_ne_nil {t : SNode} (h : t ≠ .nil) (ht : Ranked t) : t.rack ≠ [] := by
  cases t with
  | nil => exact absurd rfl h
  | node u f m mm =>
    cases f with
    | none => exact ht.elim
    | some f => simp [rack]

theorem remove_ranked {fs : Str} : ∀ (t : SNode), t ≠ .nil → Ranked t →
    ∃ t', dropFrom t fs = some t' ∧ t'.rack = Rack.remove fs t.rack ∧ Ranked t' ∧
      (t.isLeafWith fs ≠ some true → t' ≠ .nil)
  | .nil, h, _ => absurd rfl h
  | .node _ none _ _, _, h => h.elim
  | .node u (some f) m mm, _, ⟨hb, hf, hm, hmm⟩ => by
    have hsize : f.size = f.str.length := by rw [hf]; rfl
    have htakes : Group.Takes (f.offset, (f.str, u) :: content f.str m) fs ↔ f.str <+: fs := by
      simp [Group.Takes]
    unfold dropFrom isLeafWith
    dsimp only
    rw [rack, Rack.remove]
    by_cases hleaf : fs = f.str ∧ m = .nil ∧ mm = .nil
    · obtain ⟨rfl, rfl, rfl⟩ := hleaf
      simp only [and_self, decide_true]
      refine ⟨_, rfl, ?_, trivial, by simp⟩
      rw [if_pos (htakes.mpr List.prefix_rfl)]
      have := takeOut_head (fs := f.str) (u := u) (M := []) (by simp)
      rw [if_neg (show ¬ Parted [] from fun h => h)] at this
      have h1 : content f.str SNode.nil = [] := rfl
      rw [h1, this, if_pos rfl]
    rw [decide_eq_false hleaf]
    dsimp only
    rw [SNode.delete.eq_def]
    dsimp only
    by_cases hpre : f.str <+: fs
    · rw [if_pos (hasPrefix_true.mpr hpre), if_pos (htakes.mpr hpre)]
      by_cases heq : fs = f.str
      · subst heq
        rw [if_pos rfl, takeOut_head fun e he => under_content hm e he]
        cases m with
        | nil =>
          cases mm with
          | nil => exact absurd ⟨rfl, rfl, rfl⟩ hleaf
          | node u2 f2 m2 mm2 =>
            refine ⟨_, rfl, ?_, hmm, by simp⟩
            rw [if_neg (show ¬ Parted (content f.str SNode.nil) from fun h => h)]
            exact (if_pos rfl).symm
        | node u1 f1 m1 mm1 =>
          cases f1 with
          | none => exact hm.elim
          | some f1 =>
            obtain ⟨g1, g2, g3, g4, g5, g6⟩ := hm
            by_cases hmn : mm1 = .nil
            · subst hmn
              have hp : ¬ Parted (content f.str (.node u1 (some f1) m1 .nil)) := by
                rintro ⟨x, hx, h⟩
                have h1 : content f.str SNode.nil = [] := rfl
                rw [h1, List.append_nil] at hx
                exact h (group_prefix hx)
              rw [if_neg hp]
              simp only [ne_eq, not_true_eq_false, if_false, Option.map_some]
              refine ⟨_, rfl, ?_, ?_, by simp⟩
              · simp [content, newFilter, rack]
              · refine ⟨fun c hc => ?_, ?_, ?_, hmm⟩
                · simp only [newFilter, List.mem_append] at hc
                  rcases hc with hc | hc
                  · exact hb c hc
                  · exact g1 c hc
                · simp [newFilter]
                · simpa [newFilter] using g5
            · have hp : Parted (content f.str (.node u1 (some f1) m1 mm1)) := by
                cases mm1 with
                | nil => exact absurd rfl hmn
                | node u3 f3 m3 mm3 =>
                  cases f3 with
                  | none => exact g6.elim
                  | some f3 =>
                    have hin : (f.str ++ f3.str, u3) ∈ content f.str (.node u3 (some f3) m3 mm3) := by
                      simp [content]
                    exact ⟨_, List.mem_append_right _ hin, g4 _ hin⟩
              rw [if_pos hp]
              simp only [ne_eq, hmn, not_false_eq_true, if_true]
              exact ⟨_, rfl, by simp [rack], ⟨hb, hf, ⟨g1, g2, g3, g4, g5, g6⟩, hmm⟩, by simp⟩
      · rw [if_neg heq]
        obtain ⟨g', rfl⟩ := hpre
        have hg' : g' ≠ [] := fun h => heq (by rw [h, List.append_nil])
        have htake : takeOut (f.str ++ g') ((f.str, u) :: content f.str m) =
            (f.str, u) :: takeOut (f.str ++ g') (content f.str m) :=
          takeOut_left (A := [(f.str, u)]) (content f.str m) (by simpa using hg')
        rw [htake, if_neg (List.cons_ne_nil (f.str, u) (takeOut (f.str ++ g') (content f.str m))), hsize, List.drop_left]
        by_cases hmn : m = .nil
        · subst hmn
          rw [if_pos rfl]
          refine ⟨_, rfl, ?_, ⟨hb, hf, hm, hmm⟩, by simp⟩
          have h1 : content f.str SNode.nil = [] := rfl
          rw [h1, takeOut_nil, rack, h1]
        · rw [if_neg hmn]
          obtain ⟨m', k1, k2, k3⟩ := delete_under m f.str g' hmn hm hg'
          unfold dropFrom at k1
          have hres : ∃ t', t' = SNode.node u (some f) m' mm ∧ (match m.isLeafWith g' with
              | none => none
              | some true => some (SNode.node u (some f) .nil mm)
              | some false => (m.delete g').map fun m' => .node u (some f) m' mm) = some t' := by
            revert k1
            cases m.isLeafWith g' with
            | none => simp
            | some c =>
              cases c
              · intro k1
                simp only at k1 ⊢
                rw [k1]
                exact ⟨_, rfl, rfl⟩
              · intro k1
                simp only [Option.some.injEq] at k1 ⊢
                exact ⟨_, rfl, by rw [k1]⟩
          obtain ⟨t', rfl, h2⟩ := hres
          exact ⟨_, h2, by rw [rack, k2], ⟨hb, hf, k3, hmm⟩, by simp⟩
    · rw [if_neg fun h => hpre (hasPrefix_true.mp h), if_neg fun h => hpre (htakes.mp h)]
      by_cases hmn : mm = .nil
      · subst hmn
        rw [if_pos rfl]
        exact ⟨_, rfl, rfl, ⟨hb, hf, hm, hmm⟩, by simp⟩
      · rw [if_neg hmn]
        obtain ⟨mm', k1, k2, k3, -⟩ := remove_ranked mm hmn hmm
        unfold dropFrom at k1
        have hres : ∃ t', t' = SNode.node u (some f) m mm' ∧ (match mm.isLeafWith fs with
            | none => none
            | some true => some (SNode.node u (some f) m .nil)
            | some false => (mm.delete fs).map fun mm' => .node u (some f) m mm') = some t' := by
          revert k1
          cases mm.isLeafWith fs with
          | none => simp
          | some c =>
            cases c
            · intro k1
              simp only at k1 ⊢
              rw [k1]
              exact ⟨_, rfl, rfl⟩
            · intro k1
              simp only [Option.some.injEq] at k1 ⊢
              exact ⟨_, rfl, by rw [k1]⟩
        obtain ⟨t', rfl, h2⟩ := hres
        exact ⟨_, h2, by rw [rack, k2], ⟨hb, hf, hm, k3⟩, by simp⟩

/-- a deletion from a tree is a deletion from its groups -/
theorem delete_ranked (fs : Str) {t : SNode} (hn : t ≠ .nil) (ht : Ranked t) :
    ∃ t', t.delete fs = some t' ∧ t'.rack = t.rack.delete fs ∧ t' ≠ .nil ∧ Ranked t' := by
  obtain ⟨t', k1, k2, k3, k4⟩ := remove_ranked (fs := fs) t hn ht
  unfold Rack.delete
  cases hl : t.isLeafWith fs with
  | none =>
    unfold dropFrom at k1
    rw [hl] at k1
    cases k1
  | some c =>
    unfold dropFrom at k1
    rw [hl] at k1
    cases c
    · simp only at k1
      have hne := k4 (by rw [hl]; simp)
      rw [← k2, if_neg (rack_ne_nil hne k3)]
      exact ⟨t', k1, rfl, hne, k3⟩
    · simp only [Option.some.injEq] at k1
      subst k1
      rw [← k2, if_pos (show SNode.nil.rack = [] from rfl)]
      refine ⟨t, ?_, rfl, hn, ht⟩
      cases t with
      | nil => exact absurd rfl hn
      | node u f m mm =>
        cases f with
        | none => exact ht.elim
        | some f =>
          simp only [isLeafWith, Option.some.injEq, decide_eq_true_eq] at hl
          obtain ⟨rfl, rfl, rfl⟩ := hl
          rw [SNode.delete.eq_def]
          dsimp only
          rw [if_pos (hasPrefix_true.mpr List.prefix_rfl), if_pos rfl]

/-! ### calls -/

theorem add_all_ranked (b : FlatSubs) : ∀ (ks : List Str) (t : SNode), (∀ k ∈ ks, IsBitStr k) → t ≠ .nil →
    Ranked t → ∃ t', ks.foldlM (fun t fs => t.add fs ((mapGet b fs).getD [])) t = some t' ∧
      t'.rack = ks.foldl (fun r fs => r.add fs (uriOf b fs)) t.rack ∧ t' ≠ .nil ∧ Ranked t'
  | [], t, _, hn, ht => ⟨t, rfl, rfl, hn, ht⟩
  | k :: ks, t, hb, hn, ht => by
    obtain ⟨t1, a1, a2, a3, a4⟩ := add_ranked (uri := (mapGet b k).getD []) (hb k (by simp)) t hn ht
    obtain ⟨t', b1, b2, b3, b4⟩ := add_all_ranked b ks t1 (fun k hk => hb k (by simp [hk])) a3 a4
    refine ⟨t', ?_, ?_, b3, b4⟩
    · rw [List.foldlM_cons, a1]
      exact b1
    · rw [b2, a2]
      rfl

theorem delete_all_ranked : ∀ (ks : List Str) (t : SNode), t ≠ .nil → Ranked t →
    ∃ t', ks.foldlM SNode.delete t = some t' ∧ t'.rack = ks.foldl Rack.delete t.rack ∧ t' ≠ .nil ∧ Ranked t'
  | [], t, hn, ht => ⟨t, rfl, rfl, hn, ht⟩
  | k :: ks, t, hn, ht => by
    obtain ⟨t1, a1, a2, a3, a4⟩ := delete_ranked k hn ht
    obtain ⟨t', b1, b2, b3, b4⟩ := delete_all_ranked ks t1 a3 a4
    refine ⟨t', ?_, ?_, b3, b4⟩
    · rw [List.foldlM_cons, a1]
      exact b1
    · rw [b2, a2]
      rfl

/-- the tree after a call, and its groups -/
theorem call_ranked {mk : Encoder} {t : SNode} (c : SplayCall) (hc : BitCall mk c) (hn : t ≠ .nil) (ht : Ranked t) :
    (t.applyCall mk c).map SNode.rack = t.rack.call mk c ∧
    ∀ t', t.applyCall mk c = some t' → t' ≠ .nil ∧ Ranked t' := by
  cases c with
  | add s =>
    obtain ⟨t', a1, a2, a3, a4⟩ := add_all_ranked (toByteSubscriptions mk s) _ t hc hn ht
    have h : t.applyCall mk (.add s) = some t' := a1
    rw [h]
    refine ⟨by rw [Option.map_some, a2]; rfl, fun t'' h1 => ?_⟩
    cases h1
    exact ⟨a3, a4⟩
  | delete s =>
    obtain ⟨t', a1, a2, a3, a4⟩ := delete_all_ranked (mapKeys (toByteSubscriptions mk s)) t hn ht
    have h : t.applyCall mk (.delete s) = some t' := a1
    rw [h]
    refine ⟨by rw [Option.map_some, a2]; rfl, fun t'' h1 => ?_⟩
    cases h1
    exact ⟨a3, a4⟩
  | search id =>
    obtain ⟨a1, a2⟩ := search_ranked id hn ht
    refine ⟨?_, ?_⟩
    · show ((t.search id).map Prod.snd).map SNode.rack = (t.rack.search id).map Prod.snd
      rw [← a1]
      cases t.search id <;> rfl
    · intro t' h
      have h : (t.search id).map Prod.snd = some t' := h
      cases hs : t.search id with
      | none => rw [hs] at h; cases h
      | some q =>
        rw [hs] at h
        cases h
        exact a2 _ _ hs

theorem calls_ranked {mk : Encoder} : ∀ (cs : List SplayCall) (t : SNode), (∀ c ∈ cs, BitCall mk c) → t ≠ .nil →
    Ranked t → (cs.foldlM (SNode.applyCall mk) t).map SNode.rack = cs.foldlM (Rack.call mk) t.rack ∧
    ∀ t', cs.foldlM (SNode.applyCall mk) t = some t' → t' ≠ .nil ∧ Ranked t'
  | [], t, _, hn, ht => ⟨rfl, fun t' h => by cases h; exact ⟨hn, ht⟩⟩
  | c :: cs, t, hc, hn, ht => by
    obtain ⟨a1, a2⟩ := call_ranked c (hc c (by simp)) hn ht
    rw [List.foldlM_cons, List.foldlM_cons, ← a1]
    cases h : t.applyCall mk c with
    | none => exact ⟨rfl, fun t' h => by cases h⟩
    | some t1 =>
      obtain ⟨b1, b2⟩ := a2 t1 h
      exact calls_ranked cs t1 (fun c hc' => hc c (by simp [hc'])) b1 b2

end Gosstrak
