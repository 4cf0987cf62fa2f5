import Verif.Spec.Memory

/-! The pointer programs refine the functions on trees. -/
namespace Gosstrak

theorem upd_get (h : Mem) (a b : Nat) (g : Cell → Cell) :
    (h.upd a g).get b = if b = a then (h.get b).map g else h.get b := rfl

theorem upd_next (h : Mem) (a : Nat) (g : Cell → Cell) : (h.upd a g).next = h.next := rfl

theorem alloc_get (h : Mem) (b : Nat) : h.alloc.1.get b = if b = h.next then some {} else h.get b := rfl

theorem leaf_get (h : Mem) (f : FilterObject) (uri : Str) (b : Nat) :
    (h.leaf f uri).1.get b = if b = h.next then some ⟨uri, some f, none, none⟩ else h.get b := by
  simp only [Mem.leaf, upd_get, Mem.alloc]
  by_cases hb : b = h.next <;> simp [hb]

theorem leaf_next (h : Mem) (f : FilterObject) (uri : Str) : (h.leaf f uri).1.next = h.next + 1 := rfl
theorem leaf_addr (h : Mem) (f : FilterObject) (uri : Str) : (h.leaf f uri).2 = h.next := rfl

/-- only the nodes of the tree matter -/
theorem Holds.frame {h h' : Mem} : ∀ {t : SNode} {p : Option Nat} {d : List Nat}, Holds h t p d →
    (∀ x ∈ d, h'.get x = h.get x) → Holds h' t p d
  | .nil, _, _, hh, _ => hh
  | .node u f m mm, p, d, ⟨a, pm, pmm, dm, dmm, h1, h2, h3, h4, h5, h6⟩, hx => by
    subst h5
    exact ⟨a, pm, pmm, dm, dmm, h1, by rw [hx a (by simp), h2],
      h3.frame fun x hm => hx x (by simp [hm]), h4.frame fun x hm => hx x (by simp [hm]), rfl, h6⟩

theorem holds_nil {h : Mem} {t : SNode} {d : List Nat} (hh : Holds h t none d) : t = .nil ∧ d = [] := by
  cases t with
  | nil => exact ⟨rfl, hh.2⟩
  | node u f m mm => obtain ⟨a, pm, pmm, dm, dmm, h1, -⟩ := hh; simp at h1

theorem holds_leaf {h : Mem} {b : Nat} {u : Str} {f : Option FilterObject}
    (hb : h.get b = some ⟨u, f, none, none⟩) : Holds h (.node u f .nil .nil) (some b) [b] :=
  ⟨b, none, none, [], [], rfl, hb, ⟨rfl, rfl⟩, ⟨rfl, rfl⟩, by simp, by simp, by simp, by simp⟩

theorem holds_none_iff {h : Mem} {t : SNode} {p : Option Nat} {d : List Nat} (hh : Holds h t p d) :
    p = none ↔ t = .nil := by
  constructor
  · rintro rfl; exact (holds_nil hh).1
  · rintro rfl; exact hh.1

/-- the number of nodes -/
def SNode.count : SNode → Nat
  | .nil => 0
  | .node _ _ m mm => 1 + count m + count mm

/-- `h'` differs from `h` at most at the addresses `d` and at fresh ones -/
def Changes (h h' : Mem) (d : List Nat) : Prop :=
  h.next ≤ h'.next ∧ ∀ x, x ∉ d → x < h.next → h'.get x = h.get x

/-- a tree at `d'` made of nodes from `d` and fresh ones -/
def From (h h' : Mem) (d d' : List Nat) : Prop := ∀ x ∈ d', x ∈ d ∨ (h.next ≤ x ∧ x < h'.next)

theorem holds_match {h h' : Mem} {u' : Str} {f' : Option FilterObject} {mm m' : SNode} {a : Nat}
    {pm' pmm : Option Nat} {dm dmm dm' : List Nat} (hd : ∀ x ∈ a :: (dm ++ dmm), x < h.next)
    (h1 : h'.get a = some ⟨u', f', pm', pmm⟩) (hmm : Holds h mm pmm dmm) (hm' : Holds h' m' pm' dm')
    (ha : a ∉ dm) (hb : a ∉ dmm) (hdis : ∀ x ∈ dm, x ∉ dmm) (hf : From h h' dm dm')
    (hfr : ∀ x, x ∈ dmm → h'.get x = h.get x) :
    Holds h' (.node u' f' m' mm) (some a) (a :: (dm' ++ dmm)) := by
  refine ⟨a, pm', pmm, dm', dmm, rfl, h1, hm', hmm.frame hfr, rfl, ?_, hb, ?_⟩
  · intro hx
    rcases hf a hx with h' | h'
    · exact ha h'
    · have := hd a (by simp); omega
  · intro x hx hx'
    rcases hf x hx with h' | h'
    · exact hdis x h' hx'
    · have := hd x (by simp [hx']); omega

theorem holds_mismatch {h h' : Mem} {u' : Str} {f' : Option FilterObject} {m mm' : SNode} {a : Nat}
    {pm pmm' : Option Nat} {dm dmm dmm' : List Nat} (hd : ∀ x ∈ a :: (dm ++ dmm), x < h.next)
    (h1 : h'.get a = some ⟨u', f', pm, pmm'⟩) (hm : Holds h m pm dm) (hmm' : Holds h' mm' pmm' dmm')
    (ha : a ∉ dm) (hb : a ∉ dmm) (hdis : ∀ x ∈ dm, x ∉ dmm) (hf : From h h' dmm dmm')
    (hfr : ∀ x, x ∈ dm → h'.get x = h.get x) :
    Holds h' (.node u' f' m mm') (some a) (a :: (dm ++ dmm')) := by
  refine ⟨a, pm, pmm', dm, dmm', rfl, h1, hm.frame hfr, hmm', rfl, ha, ?_, ?_⟩
  · intro hx
    rcases hf a hx with h' | h'
    · exact hb h'
    · have := hd a (by simp); omega
  · intro x hx hx'
    rcases hf x hx' with h' | h'
    · exact hdis x hx h'
    · have := hd x (by simp [hx]); omega

/-! ### the splay tree: additions -/

theorem splayAdd_refines (uri : Str) : ∀ (t : SNode) (h : Mem) (a : Nat) (d : List Nat) (fs : Str) (n : Nat),
    Holds h t (some a) d → (∀ x ∈ d, x < h.next) → t.count ≤ n →
    match t.add fs uri with
    | none => splayAdd n h a fs uri = .panic
    | some t' => ∃ h' d', splayAdd n h a fs uri = .ok h' ∧ Holds h' t' (some a) d' ∧ From h h' d d' ∧
        Changes h h' d
  | .nil, _, _, _, _, _, hh, _, _ => by simp [Holds] at hh
  | .node u f m mm, h, a, d, fs, n, ⟨a', pm, pmm, dm, dmm, e1, h1, h2, h3, e2, h4, h5, h6⟩, hd, hn => by
    cases e1
    subst e2
    cases n with
    | zero => simp [SNode.count] at hn
    | succ n =>
      have hnext : a < h.next := hd a (by simp)
      rw [splayAdd, h1]
      cases f with
      | none => simp [SNode.add]
      | some f =>
        simp only [SNode.add]
        by_cases hp : hasPrefix fs f.str
        · rw [if_pos hp, if_pos hp]
          by_cases he : fs = f.str
          · rw [if_pos he, if_pos he]
            by_cases hu : u ≠ uri
            · simp only [if_pos hu]
              refine ⟨_, a :: (dm ++ dmm), rfl, ?_, fun x hx => Or.inl hx, Nat.le_refl _, fun x hx _ => ?_⟩
              · refine holds_match (h := h) (dm := dm) hd (pm' := pm) ?_ h3 (h2.frame fun x hx => ?_) h4 h5 h6
                  (fun x hx => Or.inl hx) fun x hx => ?_
                · rw [upd_get, if_pos rfl, h1]; rfl
                · rw [upd_get, if_neg]; rintro rfl; exact h4 hx
                · rw [upd_get, if_neg]; rintro rfl; exact h5 hx
              · rw [upd_get, if_neg]; rintro rfl; simp at hx
            · simp only [if_neg hu]
              exact ⟨h, a :: (dm ++ dmm), rfl, ⟨a, pm, pmm, dm, dmm, rfl, h1, h2, h3, rfl, h4, h5, h6⟩,
                fun x hx => Or.inl hx, Nat.le_refl _, fun _ _ _ => rfl⟩
          · rw [if_neg he, if_neg he]
            cases pm with
            | none =>
              obtain ⟨rfl, rfl⟩ := holds_nil h2
              simp only [if_true]
              refine ⟨_, a :: ([h.next] ++ dmm), rfl, ?_, ?_, ?_, ?_⟩
              · refine holds_match (h := h) (dm := []) hd (pm' := some h.next) ?_ h3
                  (holds_leaf ?_) h4 h5 h6 ?_ fun x hx => ?_
                · rw [upd_get, if_pos rfl, leaf_get, if_neg (Nat.ne_of_lt hnext), h1]; rfl
                · rw [upd_get, if_neg (by rintro e; omega), leaf_get, if_pos rfl]
                · intro x hx; right; simp at hx; subst hx; rw [upd_next, leaf_next]; omega
                · rw [upd_get, if_neg (by rintro rfl; exact h5 hx), leaf_get, if_neg]
                  have := hd x (by simp [hx]); omega
              · intro x hx
                simp only [List.mem_cons, List.mem_append, List.not_mem_nil, or_false] at hx
                rcases hx with rfl | rfl | hx
                · exact Or.inl (by simp)
                · right; rw [upd_next, leaf_next]; omega
                · exact Or.inl (by simp [hx])
              · rw [upd_next, leaf_next]; omega
              · intro x hx hlt
                rw [upd_get, if_neg (by rintro rfl; simp at hx), leaf_get, if_neg (by omega)]
            | some b =>
              have hm : m ≠ .nil := fun e => by have := (holds_none_iff h2).mpr e; simp at this
              simp only [if_neg hm]
              have ih := splayAdd_refines uri m h b dm (fs.drop f.size) n h2 (fun x hx => hd x (by simp [hx]))
                (by simp [SNode.count] at hn; omega)
              cases hadd : m.add (fs.drop f.size) uri with
              | none => rw [hadd] at ih; simpa using ih
              | some m' =>
                rw [hadd] at ih
                obtain ⟨h', d', i1, i2, i3, i4, i5⟩ := ih
                simp only [Option.map_some]
                refine ⟨h', a :: (d' ++ dmm), i1, ?_, ?_, i4, ?_⟩
                · refine holds_match (h := h) hd ?_ h3 i2 h4 h5 h6 i3 fun x hx => ?_
                  · rw [i5 a h4 hnext, h1]
                  · exact i5 x (fun hx' => h6 x hx' hx) (hd x (by simp [hx]))
                · intro x hx
                  simp only [List.mem_cons, List.mem_append] at hx
                  rcases hx with rfl | hx | hx
                  · exact Or.inl (by simp)
                  · exact (i3 x hx).imp (fun hx => by simp [hx]) id
                  · exact Or.inl (by simp [hx])
                · intro x hx hlt
                  exact i5 x (fun hx' => hx (by simp [hx'])) hlt
        · rw [if_neg hp, if_neg hp]
          cases pmm with
          | none =>
            obtain ⟨rfl, rfl⟩ := holds_nil h3
            simp only [if_true]
            refine ⟨_, a :: (dm ++ [h.next]), rfl, ?_, ?_, ?_, ?_⟩
            · refine holds_mismatch (h := h) (dmm := []) hd (pmm' := some h.next) ?_ h2
                (holds_leaf ?_) h4 h5 h6 ?_ fun x hx => ?_
              · rw [upd_get, if_pos rfl, leaf_get, if_neg (Nat.ne_of_lt hnext), h1]; rfl
              · rw [upd_get, if_neg (by rintro e; omega), leaf_get, if_pos rfl]
              · intro x hx; right; simp at hx; subst hx; rw [upd_next, leaf_next]; omega
              · rw [upd_get, if_neg (by rintro rfl; exact h4 hx), leaf_get, if_neg]
                have := hd x (by simp [hx]); omega
            · intro x hx
              simp only [List.mem_cons, List.mem_append, List.not_mem_nil, or_false] at hx
              rcases hx with rfl | hx | rfl
              · exact Or.inl (by simp)
              · exact Or.inl (by simp [hx])
              · right; rw [upd_next, leaf_next]; omega
            · rw [upd_next, leaf_next]; omega
            · intro x hx hlt
              rw [upd_get, if_neg (by rintro rfl; simp at hx), leaf_get, if_neg (by omega)]
          | some b =>
            have hm : mm ≠ .nil := fun e => by have := (holds_none_iff h3).mpr e; simp at this
            simp only [if_neg hm]
            have ih := splayAdd_refines uri mm h b dmm fs n h3 (fun x hx => hd x (by simp [hx]))
              (by simp [SNode.count] at hn; omega)
            cases hadd : mm.add fs uri with
            | none => rw [hadd] at ih; simpa using ih
            | some mm' =>
              rw [hadd] at ih
              obtain ⟨h', d', i1, i2, i3, i4, i5⟩ := ih
              simp only [Option.map_some]
              refine ⟨h', a :: (dm ++ d'), i1, ?_, ?_, i4, ?_⟩
              · refine holds_mismatch (h := h) hd ?_ h2 i2 h4 h5 h6 i3 fun x hx => ?_
                · rw [i5 a h5 hnext, h1]
                · exact i5 x (fun hx' => h6 x hx hx') (hd x (by simp [hx]))
              · intro x hx
                simp only [List.mem_cons, List.mem_append] at hx
                rcases hx with rfl | hx | hx
                · exact Or.inl (by simp)
                · exact Or.inl (by simp [hx])
                · exact (i3 x hx).imp (fun hx => by simp [hx]) id
              · intro x hx hlt
                exact i5 x (fun hx' => hx (by simp [hx'])) hlt

/-! ### the splay tree: deletions -/

theorem splayDelete_refines : ∀ (t : SNode) (h : Mem) (a : Nat) (d : List Nat) (fs : Str) (n : Nat),
    Holds h t (some a) d → (∀ x ∈ d, x < h.next) → t.count ≤ n →
    match t.delete fs with
    | none => splayDelete n h a fs = .panic
    | some t' => ∃ h' d', splayDelete n h a fs = .ok h' ∧ Holds h' t' (some a) d' ∧ From h h' d d' ∧
        Changes h h' d
  | .nil, _, _, _, _, _, hh, _, _ => by simp [Holds] at hh
  | .node u f m mm, h, a, d, fs, n, hh, hd, hn => by
    have hh0 := hh
    obtain ⟨a', pm, pmm, dm, dmm, e1, h1, h2, h3, e2, h4, h5, h6⟩ := hh
    cases e1
    subst e2
    have same : ∃ d', Holds h (.node u f m mm) (some a) d' ∧ From h h (a :: (dm ++ dmm)) d' ∧
        Changes h h (a :: (dm ++ dmm)) :=
      ⟨_, hh0, fun x hx => Or.inl hx, Nat.le_refl _, fun _ _ _ => rfl⟩
    cases n with
    | zero => simp [SNode.count] at hn
    | succ n =>
      have hnext : a < h.next := hd a (by simp)
      rw [splayDelete, h1]
      cases f with
      | none => simp [SNode.delete]
      | some f =>
        rw [SNode.delete.eq_def]
        dsimp only
        by_cases hp : hasPrefix fs f.str
        · rw [if_pos hp, if_pos hp]
          by_cases he : fs = f.str
          · rw [if_pos he, if_pos he]
            cases m with
            | nil =>
              obtain ⟨rfl, rfl⟩ := h2
              cases mm with
              | nil =>
                obtain ⟨rfl, rfl⟩ := h3
                obtain ⟨d', s⟩ := same
                exact ⟨h, d', rfl, s⟩
              | node u2 f2 m2 mm2 =>
                obtain ⟨b, pm2, pmm2, dm2, dmm2, rfl, g1, g2, g3, rfl, g4, g5, g6⟩ := h3
                simp only [g1]
                have hb : a ≠ b := by rintro rfl; exact h5 (by simp)
                refine ⟨_, a :: (dm2 ++ dmm2), rfl, ?_, fun x hx => Or.inl ?_, Nat.le_refl _, ?_⟩
                · refine ⟨a, pm2, pmm2, dm2, dmm2, rfl, ?_, g2.frame ?_, g3.frame ?_, rfl, ?_, ?_, g6⟩
                  · simp [upd_get, h1]
                  · intro x hx
                    have : x ≠ a := by rintro rfl; exact h5 (by simp [hx])
                    simp [upd_get, this]
                  · intro x hx
                    have : x ≠ a := by rintro rfl; exact h5 (by simp [hx])
                    simp [upd_get, this]
                  · intro hx; exact h5 (by simp [hx])
                  · intro hx; exact h5 (by simp [hx])
                · simp only [List.mem_cons, List.mem_append] at hx ⊢
                  rcases hx with hx | hx | hx <;> simp [hx]
                · intro x hx _
                  have : x ≠ a := by rintro rfl; simp at hx
                  simp [upd_get, this]
            | node u1 f1 m1 mm1 =>
              obtain ⟨b, pm1, pmm1, dm1, dmm1, rfl, g1, g2, g3, rfl, g4, g5, g6⟩ := h2
              simp only [g1]
              have hnm : ∀ x ∈ dm1 ++ dmm1 ++ dmm, x ≠ a := by
                rintro x hx rfl
                simp only [List.mem_append] at hx
                rcases hx with (hx | hx) | hx
                · exact h4 (by simp [hx])
                · exact h4 (by simp [hx])
                · exact h5 hx
              by_cases hmm1 : mm1 = .nil
              · subst hmm1
                obtain ⟨rfl, rfl⟩ := g3
                simp only [ne_eq, not_true_eq_false, if_false]
                cases f1 with
                | none => simp
                | some f1 =>
                  simp only [Option.map_some]
                  refine ⟨_, a :: (dm1 ++ dmm), rfl, ?_, fun x hx => Or.inl ?_, Nat.le_refl _, ?_⟩
                  · refine ⟨a, pm1, pmm, dm1, dmm, rfl, ?_, g2.frame ?_, h3.frame ?_, rfl, ?_, h5, ?_⟩
                    · simp [upd_get, h1]
                    · intro x hx
                      simp [upd_get, hnm x (by simp [hx])]
                    · intro x hx
                      simp [upd_get, hnm x (by simp [hx])]
                    · intro hx; exact h4 (by simp [hx])
                    · intro x hx; exact h6 x (by simp [hx])
                  · simp only [List.mem_cons, List.mem_append] at hx ⊢
                    rcases hx with hx | hx | hx <;> simp [hx]
                  · intro x hx _
                    have : x ≠ a := by rintro rfl; simp at hx
                    simp [upd_get, this]
              · have hpmm1 : pmm1 ≠ none := fun e => hmm1 ((holds_none_iff g3).mp e)
                rw [if_pos hmm1, if_pos hpmm1]
                refine ⟨_, a :: ((b :: (dm1 ++ dmm1)) ++ dmm), rfl, ?_, fun x hx => Or.inl hx, Nat.le_refl _, ?_⟩
                · refine ⟨a, some b, pmm, b :: (dm1 ++ dmm1), dmm, rfl, ?_, ?_, h3.frame ?_, rfl, h4, h5, h6⟩
                  · simp [upd_get, h1]
                  · have hm : Holds h (.node u1 f1 m1 mm1) (some b) (b :: (dm1 ++ dmm1)) :=
                      ⟨b, pm1, pmm1, dm1, dmm1, rfl, g1, g2, g3, rfl, g4, g5, g6⟩
                    refine hm.frame fun x hx => ?_
                    have : x ≠ a := by rintro rfl; exact h4 hx
                    simp [upd_get, this]
                  · intro x hx
                    simp [upd_get, hnm x (by simp [hx])]
                · intro x hx _
                  have : x ≠ a := by rintro rfl; simp at hx
                  simp [upd_get, this]
          · rw [if_neg he, if_neg he]
            by_cases hm : m = .nil
            · subst hm
              obtain ⟨rfl, rfl⟩ := h2
              rw [if_pos rfl]
              obtain ⟨d', s⟩ := same
              exact ⟨h, d', rfl, s⟩
            · rw [if_neg hm]
              cases pm with
              | none => exact absurd ((holds_none_iff h2).mp rfl) hm
              | some b =>
                have hleaf : ∃ cb, h.get b = some cb ∧
                    ((cb.f = none ∧ m.isLeafWith (fs.drop f.size) = none) ∨
                      ∃ fb, cb.f = some fb ∧ m.isLeafWith (fs.drop f.size) =
                        some (decide (fs.drop f.size = fb.str ∧ cb.l = none ∧ cb.r = none))) := by
                  cases m with
                  | nil => exact absurd rfl hm
                  | node u1 f1 m1 mm1 =>
                    obtain ⟨b', pm1, pmm1, dm1, dmm1, e, g1, g2, g3, -⟩ := h2
                    cases e
                    refine ⟨_, g1, ?_⟩
                    cases f1 with
                    | none => exact Or.inl ⟨rfl, rfl⟩
                    | some f1 =>
                      refine Or.inr ⟨f1, rfl, ?_⟩
                      simp only [SNode.isLeafWith, holds_none_iff g2, holds_none_iff g3]
                obtain ⟨cb, k1, ⟨k2, k3⟩ | ⟨fb, k2, k3⟩⟩ := hleaf
                · simp only [k1, k2, k3]
                · simp only [k1, k2, k3]
                  by_cases hl : fs.drop f.size = fb.str ∧ cb.l = none ∧ cb.r = none
                  · rw [if_pos hl]
                    simp only [hl, and_self, decide_true]
                    refine ⟨_, a :: ([] ++ dmm), rfl, ?_, fun x hx => Or.inl ?_, Nat.le_refl _, ?_⟩
                    · refine ⟨a, none, pmm, [], dmm, rfl, ?_, ⟨rfl, rfl⟩, h3.frame ?_, rfl, by simp, h5, by simp⟩
                      · simp [upd_get, h1]
                      · intro x hx
                        have : x ≠ a := by rintro rfl; exact h5 hx
                        simp [upd_get, this]
                    · simp only [List.nil_append, List.mem_cons, List.mem_append] at hx ⊢
                      rcases hx with hx | hx <;> simp [hx]
                    · intro x hx _
                      have : x ≠ a := by rintro rfl; simp at hx
                      simp [upd_get, this]
                  · rw [if_neg hl]
                    simp only [hl, decide_false]
                    have ih := splayDelete_refines m h b dm (fs.drop f.size) n h2
                      (fun x hx => hd x (by simp [hx])) (by simp [SNode.count] at hn; omega)
                    cases hdel : m.delete (fs.drop f.size) with
                    | none => rw [hdel] at ih; simpa using ih
                    | some m' =>
                      rw [hdel] at ih
                      obtain ⟨h', d', i1, i2, i3, i4, i5⟩ := ih
                      simp only [Option.map_some]
                      refine ⟨h', a :: (d' ++ dmm), i1, ?_, ?_, i4, ?_⟩
                      · refine holds_match (h := h) hd ?_ h3 i2 h4 h5 h6 i3 fun x hx => ?_
                        · rw [i5 a h4 hnext, h1]
                        · exact i5 x (fun hx' => h6 x hx' hx) (hd x (by simp [hx]))
                      · intro x hx
                        simp only [List.mem_cons, List.mem_append] at hx
                        rcases hx with rfl | hx | hx
                        · exact Or.inl (by simp)
                        · exact (i3 x hx).imp (fun hx => by simp [hx]) id
                        · exact Or.inl (by simp [hx])
                      · intro x hx hlt
                        exact i5 x (fun hx' => hx (by simp [hx'])) hlt
        · rw [if_neg hp, if_neg hp]
          by_cases hm : mm = .nil
          · subst hm
            obtain ⟨rfl, rfl⟩ := h3
            rw [if_pos rfl]
            obtain ⟨d', s⟩ := same
            exact ⟨h, d', rfl, s⟩
          · rw [if_neg hm]
            cases pmm with
            | none => exact absurd ((holds_none_iff h3).mp rfl) hm
            | some b =>
              have hleaf : ∃ cb, h.get b = some cb ∧
                  ((cb.f = none ∧ mm.isLeafWith fs = none) ∨
                    ∃ fb, cb.f = some fb ∧ mm.isLeafWith fs =
                      some (decide (fs = fb.str ∧ cb.l = none ∧ cb.r = none))) := by
                cases mm with
                | nil => exact absurd rfl hm
                | node u1 f1 m1 mm1 =>
                  obtain ⟨b', pm1, pmm1, dm1, dmm1, e, g1, g2, g3, -⟩ := h3
                  cases e
                  refine ⟨_, g1, ?_⟩
                  cases f1 with
                  | none => exact Or.inl ⟨rfl, rfl⟩
                  | some f1 =>
                    refine Or.inr ⟨f1, rfl, ?_⟩
                    simp only [SNode.isLeafWith, holds_none_iff g2, holds_none_iff g3]
              obtain ⟨cb, k1, ⟨k2, k3⟩ | ⟨fb, k2, k3⟩⟩ := hleaf
              · simp only [k1, k2, k3]
              · simp only [k1, k2, k3]
                by_cases hl : fs = fb.str ∧ cb.l = none ∧ cb.r = none
                · rw [if_pos hl]
                  simp only [hl, and_self, decide_true]
                  refine ⟨_, a :: (dm ++ []), rfl, ?_, fun x hx => Or.inl ?_, Nat.le_refl _, ?_⟩
                  · refine ⟨a, pm, none, dm, [], rfl, ?_, h2.frame ?_, ⟨rfl, rfl⟩, rfl, h4, by simp, by simp⟩
                    · simp [upd_get, h1]
                    · intro x hx
                      have : x ≠ a := by rintro rfl; exact h4 hx
                      simp [upd_get, this]
                  · simp only [List.append_nil, List.mem_cons, List.mem_append] at hx ⊢
                    rcases hx with hx | hx <;> simp [hx]
                  · intro x hx _
                    have : x ≠ a := by rintro rfl; simp at hx
                    simp [upd_get, this]
                · rw [if_neg hl]
                  simp only [hl, decide_false]
                  have ih := splayDelete_refines mm h b dmm fs n h3
                    (fun x hx => hd x (by simp [hx])) (by simp [SNode.count] at hn; omega)
                  cases hdel : mm.delete fs with
                  | none => rw [hdel] at ih; simpa using ih
                  | some mm' =>
                    rw [hdel] at ih
                    obtain ⟨h', d', i1, i2, i3, i4, i5⟩ := ih
                    simp only [Option.map_some]
                    refine ⟨h', a :: (dm ++ d'), i1, ?_, ?_, i4, ?_⟩
                    · refine holds_mismatch (h := h) hd ?_ h2 i2 h4 h5 h6 i3 fun x hx => ?_
                      · rw [i5 a h5 hnext, h1]
                      · exact i5 x (fun hx' => h6 x hx hx') (hd x (by simp [hx]))
                    · intro x hx
                      simp only [List.mem_cons, List.mem_append] at hx
                      rcases hx with rfl | hx | hx
                      · exact Or.inl (by simp)
                      · exact Or.inl (by simp [hx])
                      · exact (i3 x hx).imp (fun hx => by simp [hx]) id
                    · intro x hx hlt
                      exact i5 x (fun hx' => hx (by simp [hx'])) hlt

/-! ### the splay tree: searches -/

/-- The nodes that were made the root one after another, starting with the root `r`; the last root is
    `r'`. -/
def HoldsLifted (h : Mem) : List (Str × Option FilterObject × SNode) → Option Nat → List Nat →
    Option Nat → Prop
  | [], r, d, r' => d = [] ∧ r' = r
  | n :: ns, r, d, r' => ∃ a pm dm ds, h.get a = some ⟨n.1, n.2.1, pm, r⟩ ∧ Holds h n.2.2 pm dm ∧
      HoldsLifted h ns (some a) ds r' ∧ d = a :: (dm ++ ds) ∧ a ∉ dm ∧ a ∉ ds ∧ ∀ x ∈ dm, x ∉ ds

theorem HoldsLifted.frame {h h' : Mem} : ∀ {l : List (Str × Option FilterObject × SNode)}
    {r r' : Option Nat} {d : List Nat}, HoldsLifted h l r d r' → (∀ x ∈ d, h'.get x = h.get x) →
    HoldsLifted h' l r d r'
  | [], _, _, _, hh, _ => hh
  | n :: ns, r, r', d, ⟨a, pm, dm, ds, h1, h2, h3, h4, h5⟩, hx => by
    subst h4
    exact ⟨a, pm, dm, ds, by rw [hx a (by simp), h1], h2.frame fun x hm => hx x (by simp [hm]),
      h3.frame fun x hm => hx x (by simp [hm]), rfl, h5⟩

theorem HoldsLifted.snoc {h : Mem} {u : Str} {f : Option FilterObject} {m : SNode} {a : Nat}
    {pm : Option Nat} {dm : List Nat} : ∀ {l : List (Str × Option FilterObject × SNode)}
    {r r' : Option Nat} {d : List Nat}, HoldsLifted h l r d r' → h.get a = some ⟨u, f, pm, r'⟩ →
    Holds h m pm dm → a ∉ dm → a ∉ d → (∀ x ∈ d, x ∉ dm) →
    HoldsLifted h (l ++ [(u, f, m)]) r (d ++ a :: dm) (some a)
  | [], r, r', d, ⟨h1, h2⟩, h3, h4, h5, _, _ => by
    subst h1 h2
    exact ⟨a, pm, dm, [], h3, h4, ⟨rfl, rfl⟩, by simp, h5, by simp, by simp⟩
  | n :: ns, r, r', d, ⟨b, pb, db, ds, h1, h2, h3, h4, h5, h6, h7⟩, g1, g2, g3, g4, g5 => by
    subst h4
    refine ⟨b, pb, db, ds ++ a :: dm, h1, h2,
      h3.snoc g1 g2 g3 (fun hx => g4 (by simp [hx])) (fun x hx => g5 x (by simp [hx])), by simp, h5, ?_, ?_⟩
    · intro hx
      simp only [List.mem_append, List.mem_cons] at hx
      rcases hx with hx | rfl | hx
      · exact h6 hx
      · exact g4 (by simp)
      · exact g5 b (by simp) hx
    · intro x hx hx'
      simp only [List.mem_append, List.mem_cons] at hx'
      rcases hx' with hx' | rfl | hx'
      · exact h7 x hx hx'
      · exact g4 (by simp [hx])
      · exact g5 x (by simp [hx]) hx'

theorem HoldsLifted.attach {h : Mem} : ∀ {l : List (Str × Option FilterObject × SNode)}
    {r r' : Option Nat} {d dr : List Nat} {t : SNode}, HoldsLifted h l r d r' → Holds h t r dr →
    (∀ x ∈ d, x ∉ dr) → ∃ d', Holds h (l.foldl SNode.attach t) r' d' ∧ ∀ x ∈ d', x ∈ d ∨ x ∈ dr
  | [], r, r', d, dr, t, ⟨_, h2⟩, h3, _ => by subst h2; exact ⟨dr, h3, fun x hx => Or.inr hx⟩
  | n :: ns, r, r', d, dr, t, ⟨a, pm, dm, ds, h1, h2, h3, h4, h5, h6, h7⟩, g1, g2 => by
    subst h4
    obtain ⟨d', i1, i2⟩ := h3.attach (t := SNode.attach t n) (dr := a :: (dm ++ dr))
      ⟨a, pm, r, dm, dr, rfl, h1, h2, g1, rfl, h5, g2 a (by simp), fun x hx => g2 x (by simp [hx])⟩ (by
        intro x hx hx'
        simp only [List.mem_cons, List.mem_append] at hx'
        rcases hx' with rfl | hx' | hx'
        · exact h6 hx
        · exact h7 x hx' hx
        · exact g2 x (by simp [hx]) hx')
    refine ⟨d', i1, fun x hx => ?_⟩
    rcases i2 x hx with hx | hx
    · exact Or.inl (by simp [hx])
    · simp only [List.mem_cons, List.mem_append] at hx
      rcases hx with rfl | hx | hx
      · exact Or.inl (by simp)
      · exact Or.inl (by simp [hx])
      · exact Or.inr hx

theorem splaySearchAt_refines (id : List Byte) : ∀ (t : SNode) (first : Bool) (h : Mem) (root : Option Nat)
    (a : Nat) (parent : Option Nat) (d : List Nat) (n : Nat),
    Holds h t (some a) d → t.count ≤ n → (first = true ↔ parent = none) →
    (∀ p, parent = some p → p ∉ d) →
    match t.splaySearch first id with
    | none => splaySearchAt n h root a parent id = .panic
    | some (ms, rest, lifted) => ∃ h' root' q dr dl,
        splaySearchAt n h root a parent id = .ok (h', root', ms) ∧ Holds h' rest q dr ∧
        (parent = none → q = some a) ∧
        (∀ p cp, parent = some p → h.get p = some cp → cp.r = some a → h'.get p = some { cp with r := q }) ∧
        HoldsLifted h' lifted root dl root' ∧ (∀ x ∈ dl, x ∉ dr) ∧ (∀ x, x ∈ dr ∨ x ∈ dl → x ∈ d) ∧
        (∀ x, x ∉ d → parent ≠ some x → h'.get x = h.get x) ∧ h'.next = h.next
  | .nil, _, _, _, _, _, _, _, hh, _, _, _ => by simp [Holds] at hh
  | .node u f m mm, first, h, root, a, parent, d, n, hh, hn, hfirst, hpar => by
    have hh0 := hh
    obtain ⟨a', pm, pmm, dm, dmm, e1, h1, h2, h3, e2, h4, h5, h6⟩ := hh
    cases e1
    subst e2
    cases n with
    | zero => simp [SNode.count] at hn
    | succ n =>
      rw [splaySearchAt, h1]
      cases f with
      | none => simp [SNode.splaySearch]
      | some f =>
        rw [SNode.splaySearch]
        dsimp only
        cases hm : f.matchID id with
        | none => simp
        | some b =>
          cases b with
          | true =>
            dsimp only
            -- the nested search
            have hnest : match (if m = .nil then some ([], .nil, []) else m.splaySearch true id) with
                | none => Out.ifNotNil pm (fun b => splaySearchAt n h root b none id) (h, root, []) = .panic
                | some (ms, m', lifted) => ∃ h' root' dr dl,
                    Out.ifNotNil pm (fun b => splaySearchAt n h root b none id) (h, root, []) = .ok (h', root', ms) ∧
                    Holds h' m' pm dr ∧ HoldsLifted h' lifted root dl root' ∧ (∀ x ∈ dl, x ∉ dr) ∧
                    (∀ x, x ∈ dr ∨ x ∈ dl → x ∈ dm) ∧ (∀ x, x ∉ dm → h'.get x = h.get x) ∧
                    h'.next = h.next := by
              cases pm with
              | none =>
                obtain ⟨rfl, rfl⟩ := holds_nil h2
                simp only [if_true]
                exact ⟨h, root, [], [], rfl, h2, ⟨rfl, rfl⟩, by simp, by simp, fun _ _ => rfl, rfl⟩
              | some b =>
                have hm : m ≠ .nil := fun e => by have := (holds_none_iff h2).mpr e; simp at this
                rw [if_neg hm]
                have ih := splaySearchAt_refines id m true h root b none dm n h2
                  (by simp [SNode.count] at hn; omega) (by simp) (by simp)
                cases hs : m.splaySearch true id with
                | none => rw [hs] at ih; exact ih
                | some r =>
                  obtain ⟨ms, m', lifted⟩ := r
                  rw [hs] at ih
                  obtain ⟨h', root', q, dr, dl, i1, i2, i3, -, i5, i6, i7, i8, i9⟩ := ih
                  rw [i3 rfl] at i2
                  exact ⟨h', root', dr, dl, i1, i2, i5, i6, i7, fun x hx => i8 x hx (by simp), i9⟩
            cases hs : (if m = .nil then some ([], .nil, []) else m.splaySearch true id) with
            | none => rw [hs] at hnest; dsimp only at hnest; simp only [hnest, Out.bind]
            | some r =>
              obtain ⟨ms, m', lifted⟩ := r
              rw [hs] at hnest
              obtain ⟨h', root', dr, dl, i1, i2, i3, i4, i5, i6, i7⟩ := hnest
              simp only [i1, Out.bind]
              have ha' : h'.get a = some ⟨u, some f, pm, pmm⟩ := by rw [i6 a h4, h1]
              have hadr : a ∉ dr := fun hx => h4 (i5 a (Or.inl hx))
              have hadl : a ∉ dl := fun hx => h4 (i5 a (Or.inr hx))
              have hmm' : Holds h' mm pmm dmm := h3.frame fun x hx => i6 x fun hx' => h6 x hx' hx
              cases parent with
              | none =>
                rw [hfirst.mpr rfl]
                simp only [if_true]
                refine ⟨h', root', some a, a :: (dr ++ dmm), dl, rfl, ?_, fun _ => rfl, by simp, i3, ?_, ?_, ?_, i7⟩
                · exact ⟨a, pm, pmm, dr, dmm, rfl, ha', i2, hmm', rfl, hadr, h5,
                    fun x hx => h6 x (i5 x (Or.inl hx))⟩
                · intro x hx hx'
                  simp only [List.mem_cons, List.mem_append] at hx'
                  rcases hx' with rfl | hx' | hx'
                  · exact hadl hx
                  · exact i4 x hx hx'
                  · exact h6 x (i5 x (Or.inr hx)) hx'
                · intro x hx
                  simp only [List.mem_cons, List.mem_append] at hx ⊢
                  rcases hx with (rfl | hx | hx) | hx
                  · exact Or.inl rfl
                  · exact Or.inr (Or.inl (i5 x (Or.inl hx)))
                  · exact Or.inr (Or.inr hx)
                  · exact Or.inr (Or.inl (i5 x (Or.inr hx)))
                · intro x hx _
                  exact i6 x fun hx' => hx (by simp [hx'])
              | some p =>
                have hfalse : first = false := by
                  cases first with
                  | false => rfl
                  | true => have := hfirst.mp rfl; simp at this
                subst hfalse
                have hpd := hpar p rfl
                have hpa : a ≠ p := by rintro rfl; simp at hpd
                have hpm : p ∉ dm := fun hx => hpd (by simp [hx])
                have hpmm : p ∉ dmm := fun hx => hpd (by simp [hx])
                simp only [ha', Bool.false_eq_true, if_false]
                -- the memory after the two assignments
                have hget : ∀ x, x ≠ a → x ≠ p →
                    (((h'.upd p fun cp => { cp with r := pmm }).upd a fun c => { c with r := root' }).get x) =
                      h'.get x := by
                  intro x hx hx'
                  rw [upd_get, if_neg hx, upd_get, if_neg hx']
                refine ⟨_, some a, pmm, dmm, dl ++ a :: dr, rfl, ?_, by simp, ?_, ?_, ?_, ?_, ?_, ?_⟩
                · refine hmm'.frame fun x hx => hget x ?_ ?_
                  · rintro rfl; exact h5 hx
                  · rintro rfl; exact hpmm hx
                · rintro p' cp rfl' hp hr
                  cases rfl'
                  rw [upd_get, if_neg (Ne.symm hpa), upd_get, if_pos rfl, i6 p hpm, hp]
                  rfl
                · refine HoldsLifted.snoc (pm := pm) (r' := root') (i3.frame fun x hx => hget x ?_ ?_) ?_
                    (i2.frame fun x hx => hget x ?_ ?_) hadr hadl (fun x hx => i4 x hx)
                  · rintro rfl; exact hadl hx
                  · rintro rfl; exact hpm (i5 x (Or.inr hx))
                  · rw [upd_get, if_pos rfl, upd_get, if_neg hpa, ha']; rfl
                  · rintro rfl; exact hadr hx
                  · rintro rfl; exact hpm (i5 x (Or.inl hx))
                · intro x hx hx'
                  simp only [List.mem_append, List.mem_cons] at hx
                  rcases hx with hx | rfl | hx
                  · exact h6 x (i5 x (Or.inr hx)) hx'
                  · exact h5 hx'
                  · exact h6 x (i5 x (Or.inl hx)) hx'
                · intro x hx
                  simp only [List.mem_append, List.mem_cons] at hx ⊢
                  rcases hx with hx | hx | rfl | hx
                  · exact Or.inr (Or.inr hx)
                  · exact Or.inr (Or.inl (i5 x (Or.inr hx)))
                  · exact Or.inl rfl
                  · exact Or.inr (Or.inl (i5 x (Or.inl hx)))
                · intro x hx hx'
                  rw [hget x (by rintro rfl; simp at hx) (by rintro rfl; exact hx' rfl)]
                  exact i6 x fun hx' => hx (by simp [hx'])
                · exact i7
          | false =>
            dsimp only
            cases pmm with
            | none =>
              obtain ⟨rfl, rfl⟩ := holds_nil h3
              simp only [if_true]
              refine ⟨h, root, some a, a :: (dm ++ []), [], rfl, hh0, fun _ => rfl, ?_, ⟨rfl, rfl⟩, by simp,
                by simp, fun _ _ _ => rfl, rfl⟩
              intro p cp _ hp hr
              rw [hp, ← hr]
            | some b =>
              have hm : mm ≠ .nil := fun e => by have := (holds_none_iff h3).mpr e; simp at this
              rw [if_neg hm]
              have ih := splaySearchAt_refines id mm false h root b (some a) dmm n h3
                (by simp [SNode.count] at hn; omega) (by simp) (by rintro p e; cases e; exact h5)
              cases hs : mm.splaySearch false id with
              | none => rw [hs] at ih; exact ih
              | some r =>
                obtain ⟨ms, mm', lifted⟩ := r
                rw [hs] at ih
                obtain ⟨h', root', q, dr, dl, i1, i2, -, i4, i5, i6, i7, i8, i9⟩ := ih
                have ha' := i4 a _ rfl h1 rfl
                dsimp only at ha'
                have hadl : a ∉ dl := fun hx => h5 (i7 a (Or.inr hx))
                refine ⟨h', root', some a, a :: (dm ++ dr), dl, i1, ?_, fun _ => rfl, ?_, i5, ?_, ?_, ?_, i9⟩
                · exact ⟨a, pm, q, dm, dr, rfl, ha',
                    h2.frame fun x hx => i8 x (h6 x hx) (by simp; rintro rfl; exact h4 hx), i2, rfl, h4,
                    fun hx => h5 (i7 a (Or.inl hx)), fun x hx hx' => h6 x hx (i7 x (Or.inl hx'))⟩
                · intro p cp hp hg hr
                  have hpd := hpar p hp
                  rw [i8 p (fun hx => hpd (by simp [hx])) (by simp; rintro rfl; simp at hpd), hg, ← hr]
                · intro x hx hx'
                  simp only [List.mem_cons, List.mem_append] at hx'
                  rcases hx' with rfl | hx' | hx'
                  · exact hadl hx
                  · exact h6 x hx' (i7 x (Or.inr hx))
                  · exact i6 x hx hx'
                · intro x hx
                  simp only [List.mem_cons, List.mem_append] at hx ⊢
                  rcases hx with (rfl | hx | hx) | hx
                  · exact Or.inl rfl
                  · exact Or.inr (Or.inl hx)
                  · exact Or.inr (Or.inr (i7 x (Or.inl hx)))
                  · exact Or.inr (Or.inr (i7 x (Or.inr hx)))
                · intro x hx _
                  exact i8 x (fun hx' => hx (by simp [hx'])) (by simp; rintro rfl; simp at hx)

end Gosstrak
