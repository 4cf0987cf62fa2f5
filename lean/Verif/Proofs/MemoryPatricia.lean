import Verif.Spec.MemoryPatricia
import Verif.Proofs.Memory
import Verif.Proofs.Patricia

/-! The pointer programs of the Patricia trie refine the functions on trees. -/
namespace Gosstrak

theorem cells_nil {t : PNode} : t.cells = .nil ↔ t = .nil := by
  cases t <;> simp [PNode.cells]

/-- what an operation on the node at `a` leaves -/
def Leaves (h h' : Mem) (a : Nat) (d : List Nat) (t : SNode) : Prop :=
  ∃ d', Holds h' t (some a) d' ∧ From h h' d d' ∧ Changes h h' d

theorem leaves_same {h : Mem} {a : Nat} {d : List Nat} {t : SNode} (hh : Holds h t (some a) d) : Leaves h h a d t :=
  ⟨d, hh, fun _ hx => Or.inl hx, Nat.le_refl _, fun _ _ _ => rfl⟩

/-- an operation on the first child -/
theorem leaves_left {h h' : Mem} {u : Str} {f : Option FilterObject} {m' mm : SNode} {a b : Nat} {pmm : Option Nat}
    {dm dmm : List Nat} (hd : ∀ x ∈ a :: (dm ++ dmm), x < h.next)
    (h1 : h.get a = some ⟨u, f, some b, pmm⟩) (h3 : Holds h mm pmm dmm)
    (h4 : a ∉ dm) (h5 : a ∉ dmm) (h6 : ∀ x ∈ dm, x ∉ dmm) (ih : Leaves h h' b dm m') :
    Leaves h h' a (a :: (dm ++ dmm)) (.node u f m' mm) := by
  obtain ⟨d', i2, i3, i4, i5⟩ := ih
  refine ⟨a :: (d' ++ dmm), ?_, ?_, i4, ?_⟩
  · refine holds_match (h := h) hd ?_ h3 i2 h4 h5 h6 i3 fun x hx => ?_
    · rw [i5 a h4 (hd a (by simp)), h1]
    · exact i5 x (fun hx' => h6 x hx' hx) (hd x (by simp [hx]))
  · intro x hx
    simp only [List.mem_cons, List.mem_append] at hx
    rcases hx with rfl | hx | hx
    · exact Or.inl (by simp)
    · exact (i3 x hx).imp (fun hx => by simp [hx]) id
    · exact Or.inl (by simp [hx])
  · intro x hx hlt
    exact i5 x (fun hx' => hx (by simp [hx'])) hlt

/-- an operation on the second child -/
theorem leaves_right {h h' : Mem} {u : Str} {f : Option FilterObject} {m mm' : SNode} {a b : Nat} {pm : Option Nat}
    {dm dmm : List Nat} (hd : ∀ x ∈ a :: (dm ++ dmm), x < h.next)
    (h1 : h.get a = some ⟨u, f, pm, some b⟩) (h2 : Holds h m pm dm)
    (h4 : a ∉ dm) (h5 : a ∉ dmm) (h6 : ∀ x ∈ dm, x ∉ dmm) (ih : Leaves h h' b dmm mm') :
    Leaves h h' a (a :: (dm ++ dmm)) (.node u f m mm') := by
  obtain ⟨d', i2, i3, i4, i5⟩ := ih
  refine ⟨a :: (dm ++ d'), ?_, ?_, i4, ?_⟩
  · refine holds_mismatch (h := h) hd ?_ h2 i2 h4 h5 h6 i3 fun x hx => ?_
    · rw [i5 a h5 (hd a (by simp)), h1]
    · exact i5 x (fun hx' => h6 x hx hx') (hd x (by simp [hx]))
  · intro x hx
    simp only [List.mem_cons, List.mem_append] at hx
    rcases hx with rfl | hx | hx
    · exact Or.inl (by simp)
    · exact Or.inl (by simp [hx])
    · exact (i3 x hx).imp (fun hx => by simp [hx]) id
  · intro x hx hlt
    exact i5 x (fun hx' => hx (by simp [hx'])) hlt

/-- an operation that changes the fields of one node, and nothing else of the nodes in use: its children
    stay the same or become nil, the children of its children, or trees of fresh nodes -/
theorem leaves_node {h h' : Mem} {u : Str} {f : Option FilterObject} {m mm : SNode} {a : Nat} {pm pmm : Option Nat}
    {d dm dmm : List Nat} (hd : ∀ x ∈ a :: d, x < h.next) (hn : h.next ≤ h'.next)
    (h1 : h'.get a = some ⟨u, f, pm, pmm⟩) (hx : ∀ x, x ≠ a → x < h.next → h'.get x = h.get x)
    (h2 : Holds h' m pm dm) (h3 : Holds h' mm pmm dmm) (ha : a ∉ dm) (hb : a ∉ dmm) (hdis : ∀ x ∈ dm, x ∉ dmm)
    (hf : From h h' (a :: d) (dm ++ dmm)) : Leaves h h' a (a :: d) (.node u f m mm) := by
  refine ⟨a :: (dm ++ dmm), ⟨a, pm, pmm, dm, dmm, rfl, h1, h2, h3, rfl, ha, hb, hdis⟩, ?_, hn, ?_⟩
  · intro x hm
    rcases List.mem_cons.mp hm with rfl | hm
    · exact Or.inl (by simp)
    · exact hf x hm
  · intro x hm hlt
    exact hx x (by rintro rfl; simp at hm) hlt

theorem patAdd_refines (uri : Str) : ∀ (t : PNode) (h : Mem) (a : Nat) (d : List Nat) (fs : Str) (n : Nat),
    Holds h t.cells (some a) d → (∀ x ∈ d, x < h.next) → t.cells.count ≤ n →
    ∃ h', patAdd n h a fs uri = .ok h' ∧ Leaves h h' a d (t.add fs uri).cells
  | .nil, _, _, _, _, _, hh, _, _ => by simp [Holds, PNode.cells] at hh
  | .node u f one zero, h, a, d, fs, n, hh, hd, hn => by
    have hh0 := hh
    obtain ⟨a', pm, pmm, dm, dmm, e1, h1, h2, h3, e2, h4, h5, h6⟩ := hh
    cases e1
    subst e2
    cases n with
    | zero => simp [SNode.count, PNode.cells] at hn
    | succ n =>
      simp only [PNode.cells, SNode.count] at hn
      have hnext : a < h.next := hd a (by simp)
      rw [patAdd, h1, PNode.add.eq_def]
      dsimp only
      by_cases hp : hasPrefix fs f.str
      · rw [if_pos hp, if_pos hp]
        by_cases he : fs = f.str
        · rw [if_pos he, if_pos he]
          by_cases hu : u ≠ uri
          · rw [if_pos hu, if_pos hu]
            refine ⟨_, rfl, leaves_node (pm := pm) (pmm := pmm) (dm := dm) (dmm := dmm) hd (Nat.le_refl _) ?_ ?_
              (h2.frame ?_) (h3.frame ?_) h4 h5 h6 fun x hx => Or.inl (by simp [List.mem_append.mp hx])⟩
            · rw [upd_get, if_pos rfl, h1]; rfl
            · intro x hx _; rw [upd_get, if_neg hx]
            · intro x hx; rw [upd_get, if_neg]; rintro rfl; exact h4 hx
            · intro x hx; rw [upd_get, if_neg]; rintro rfl; exact h5 hx
          · rw [if_neg hu, if_neg hu]
            exact ⟨h, rfl, leaves_same hh0⟩
        · rw [if_neg he, if_neg he]
          by_cases hl : fs.length > f.size
          · rw [if_pos hl, if_pos hl]
            generalize hrest : fs.drop f.size = rest
            have newLeaf : ∀ f', (∀ x, (h.leaf f' uri).1.get x = if x = h.next then some ⟨uri, some f', none, none⟩ else h.get x) :=
              fun f' x => leaf_get h f' uri x
            split
            · rename_i rest'
              cases one with
              | nil =>
                obtain ⟨rfl, rfl⟩ := h2
                refine ⟨_, rfl, leaves_node (pm := some h.next) (pmm := pmm) (dm := [h.next]) (dmm := dmm) hd
                  (by rw [upd_next, leaf_next]; omega) ?_ ?_ (holds_leaf ?_) (h3.frame ?_) ?_ h5 ?_ ?_⟩
                · rw [upd_get, if_pos rfl, leaf_get, if_neg (Nat.ne_of_lt hnext), h1]; rfl
                · intro x hx hlt; rw [upd_get, if_neg hx, leaf_get, if_neg (by omega)]
                · rw [upd_get, if_neg (by omega), leaf_get, if_pos rfl]
                · intro x hx
                  have := hd x (by simp [hx])
                  rw [upd_get, if_neg (by rintro rfl; exact h5 hx), leaf_get, if_neg (by omega)]
                · simp; omega
                · intro x hx hx'
                  have := hd x (by simp [hx'])
                  simp at hx; omega
                · intro x hx
                  simp only [List.mem_append, List.mem_singleton] at hx
                  rcases hx with rfl | hx
                  · right; rw [upd_next, leaf_next]; omega
                  · left; simp [hx]
              | node u1 f1 o1 z1 =>
                cases pm with
                | none => simp [PNode.cells, Holds] at h2
                | some b =>
                  obtain ⟨h', i1, i2⟩ := patAdd_refines uri (.node u1 f1 o1 z1) h b dm ('1' :: rest') n h2
                    (fun x hx => hd x (by simp [hx])) (by omega)
                  exact ⟨h', i1, leaves_left hd h1 h3 h4 h5 h6 i2⟩
            · rename_i rest'
              cases zero with
              | nil =>
                obtain ⟨rfl, rfl⟩ := h3
                refine ⟨_, rfl, leaves_node (pm := pm) (pmm := some h.next) (dm := dm) (dmm := [h.next]) hd
                  (by rw [upd_next, leaf_next]; omega) ?_ ?_ (h2.frame ?_) (holds_leaf ?_) h4 ?_ ?_ ?_⟩
                · rw [upd_get, if_pos rfl, leaf_get, if_neg (Nat.ne_of_lt hnext), h1]; rfl
                · intro x hx hlt; rw [upd_get, if_neg hx, leaf_get, if_neg (by omega)]
                · intro x hx
                  have := hd x (by simp [hx])
                  rw [upd_get, if_neg (by rintro rfl; exact h4 hx), leaf_get, if_neg (by omega)]
                · rw [upd_get, if_neg (by omega), leaf_get, if_pos rfl]
                · simp; omega
                · intro x hx hx'
                  have := hd x (by simp [hx])
                  simp at hx'; omega
                · intro x hx
                  simp only [List.mem_append, List.mem_singleton] at hx
                  rcases hx with hx | rfl
                  · left; simp [hx]
                  · right; rw [upd_next, leaf_next]; omega
              | node u1 f1 o1 z1 =>
                cases pmm with
                | none => simp [PNode.cells, Holds] at h3
                | some b =>
                  obtain ⟨h', i1, i2⟩ := patAdd_refines uri (.node u1 f1 o1 z1) h b dmm ('0' :: rest') n h3
                    (fun x hx => hd x (by simp [hx])) (by omega)
                  exact ⟨h', i1, leaves_right hd h1 h2 h4 h5 h6 i2⟩
            · rename_i n1 n0
              split
              · exact absurd rfl (n1 _)
              · exact absurd rfl (n0 _)
              · exact ⟨h, rfl, leaves_same hh0⟩
          · rw [if_neg hl, if_neg hl]
            exact ⟨h, rfl, leaves_same hh0⟩
      · rw [if_neg hp, if_neg hp]
        generalize lcp [fs, f.str] = ncp
        -- the memory after the assignments to the new node and to the old one
        generalize hg : ((((((h.alloc.1.upd h.alloc.2 fun c => { c with f := some (newFilter (f.str.drop ncp.length) (f.offset + ncp.length)) }).upd
          h.alloc.2 fun cx => { cx with l := pm }).upd h.alloc.2 fun cx => { cx with r := pmm }).upd h.alloc.2 fun cx =>
          { cx with uri := u }).upd a fun c => { c with uri := [] }).upd a fun c => { c with f := some (newFilter ncp f.offset) }) = g
        have hne : a ≠ h.next := by omega
        have hx2 : h.alloc.2 = h.next := rfl
        have g1 : g.get a = some ⟨[], some (newFilter ncp f.offset), pm, pmm⟩ := by
          rw [← hg]; simp [upd_get, alloc_get, hx2, hne, h1]
        have g2 : g.get h.next = some ⟨u, some (newFilter (f.str.drop ncp.length) (f.offset + ncp.length)), pm, pmm⟩ := by
          rw [← hg]; simp [upd_get, alloc_get, hx2, Ne.symm hne]
        have g3 : ∀ x, x ≠ a → x ≠ h.next → g.get x = h.get x := by
          intro x q1 q2
          rw [← hg]; simp [upd_get, alloc_get, hx2, q1, q2]
        have g4 : g.next = h.next + 1 := by rw [← hg]; rfl
        have f2 : Holds g one.cells pm dm := h2.frame fun x hx => by
          have := hd x (by simp [hx])
          exact g3 x (by rintro rfl; exact h4 hx) (by omega)
        have f3 : Holds g zero.cells pmm dmm := h3.frame fun x hx => by
          have := hd x (by simp [hx])
          exact g3 x (by rintro rfl; exact h5 hx) (by omega)
        have unchanged : Leaves h g a (a :: (dm ++ dmm)) (.node [] (some (newFilter ncp f.offset)) one.cells zero.cells) :=
          leaves_node hd (by omega) g1 (fun x q1 q2 => g3 x q1 (by omega)) f2 f3 h4 h5 h6
            fun x hx => Or.inl (by simp [List.mem_append.mp hx])
        by_cases hl : ncp.length ≥ fs.length
        · rw [if_pos hl, if_pos hl]
          exact ⟨g, rfl, unchanged⟩
        · rw [if_neg hl, if_neg hl]
          have hfresh : ∀ x ∈ dm ++ dmm, x ≠ h.next := fun x hx => by have := hd x (List.mem_cons_of_mem _ hx); omega
          have hold : ∀ (g' : Mem), g'.get h.next = g.get h.next → (∀ x ∈ dm ++ dmm, g'.get x = g.get x) →
              Holds g' (PNode.node u (newFilter (f.str.drop ncp.length) (f.offset + ncp.length)) one zero).cells
                (some h.next) (h.next :: (dm ++ dmm)) := by
            intro g' q1 q2
            exact ⟨h.next, pm, pmm, dm, dmm, rfl, by rw [q1, g2], f2.frame fun x hx => q2 x (by simp [hx]),
              f3.frame fun x hx => q2 x (by simp [hx]), rfl, fun hx => hfresh _ (by simp [hx]) rfl,
              fun hx => hfresh _ (by simp [hx]) rfl, h6⟩
          have hna : ∀ x ∈ dm ++ dmm, x ≠ a := by
            rintro x hx rfl
            rcases List.mem_append.mp hx with hx | hx
            · exact h4 hx
            · exact h5 hx
          have hlt : ∀ x ∈ dm ++ dmm, x < h.next := fun x hx => hd x (List.mem_cons_of_mem _ hx)
          generalize hrest : fs.drop ncp.length = rest
          split
          · refine ⟨_, rfl, leaves_node (pm := some (h.next + 1)) (pmm := some h.next) (dm := [h.next + 1])
              (dmm := h.next :: (dm ++ dmm)) hd ?_ ?_ ?_ (holds_leaf ?_) (hold _ ?_ ?_) ?_ ?_ ?_ ?_⟩
            · rw [upd_next, leaf_next, upd_next, g4]; omega
            · rw [upd_get, if_pos rfl, leaf_get, upd_next, g4, if_neg (by omega), upd_get, if_pos rfl, g1, leaf_addr, upd_next, g4]; rfl
            · intro x hx hl'
              rw [upd_get, if_neg hx, leaf_get, upd_next, g4, if_neg (by omega), upd_get, if_neg hx, g3 x hx (by omega)]
            · rw [upd_get, if_neg (by omega), leaf_get, upd_next, g4, if_pos rfl]
            · rw [upd_get, if_neg (by omega), leaf_get, upd_next, g4, if_neg (by omega), upd_get, if_neg (by omega)]
            · intro x hx
              have := hlt x hx
              rw [upd_get, if_neg (hna x hx), leaf_get, upd_next, g4, if_neg (by omega), upd_get, if_neg (hna x hx)]
            · simp; omega
            · intro hx
              rcases List.mem_cons.mp hx with hx | hx
              · omega
              · exact hna a hx rfl
            · intro x hx hx'
              simp only [List.mem_singleton] at hx
              rcases List.mem_cons.mp hx' with hx' | hx'
              · omega
              · have := hlt x hx'; omega
            · intro x hx
              simp only [List.singleton_append, List.mem_cons] at hx
              rw [upd_next, leaf_next, upd_next, g4]
              rcases hx with hx | hx | hx
              · right; omega
              · right; omega
              · left; exact List.mem_cons_of_mem _ hx
          · refine ⟨_, rfl, leaves_node (pmm := some (h.next + 1)) (pm := some h.next) (dmm := [h.next + 1])
              (dm := h.next :: (dm ++ dmm)) hd ?_ ?_ ?_ (hold _ ?_ ?_) (holds_leaf ?_) ?_ ?_ ?_ ?_⟩
            · rw [upd_next, leaf_next, upd_next, g4]; omega
            · rw [upd_get, if_pos rfl, leaf_get, upd_next, g4, if_neg (by omega), upd_get, if_pos rfl, g1, leaf_addr, upd_next, g4]; rfl
            · intro x hx hl'
              rw [upd_get, if_neg hx, leaf_get, upd_next, g4, if_neg (by omega), upd_get, if_neg hx, g3 x hx (by omega)]
            · rw [upd_get, if_neg (by omega), leaf_get, upd_next, g4, if_neg (by omega), upd_get, if_neg (by omega)]
            · intro x hx
              have := hlt x hx
              rw [upd_get, if_neg (hna x hx), leaf_get, upd_next, g4, if_neg (by omega), upd_get, if_neg (hna x hx)]
            · rw [upd_get, if_neg (by omega), leaf_get, upd_next, g4, if_pos rfl]
            · intro hx
              rcases List.mem_cons.mp hx with hx | hx
              · omega
              · exact hna a hx rfl
            · simp; omega
            · intro x hx' hx
              simp only [List.mem_singleton] at hx
              rcases List.mem_cons.mp hx' with hx' | hx'
              · omega
              · have := hlt x hx'; omega
            · intro x hx
              simp only [List.mem_append, List.mem_cons, List.not_mem_nil, or_false] at hx
              rw [upd_next, leaf_next, upd_next, g4]
              rcases hx with (hx | hx) | hx
              · right; omega
              · left; exact List.mem_cons_of_mem _ (List.mem_append.mpr hx)
              · right; omega
          · rename_i n1 n0
            split
            · exact absurd rfl (n1 _)
            · exact absurd rfl (n0 _)
            · exact ⟨g, rfl, unchanged⟩

/-! ### deletions -/

theorem patDeleteChild_refines {rec : Mem → Nat → Str → Out Mem} {h cut : Mem} {p : Option Nat} {d : List Nat}
    {rest : Str} (t : PNode) (hh : Holds h t.cells p d)
    (hrec : ∀ b, p = some b → ∃ h', rec h b rest = .ok h' ∧ Leaves h h' b d (t.delete rest).cells) :
    (t = .nil ∧ patDeleteChild rec h p cut rest = .ok h) ∨
    (t ≠ .nil ∧ t.isLeafWith rest = true ∧ patDeleteChild rec h p cut rest = .ok cut) ∨
    (t ≠ .nil ∧ t.isLeafWith rest = false ∧ ∃ b h', p = some b ∧ patDeleteChild rec h p cut rest = .ok h' ∧
      Leaves h h' b d (t.delete rest).cells) := by
  cases t with
  | nil => obtain ⟨rfl, rfl⟩ := hh; exact Or.inl ⟨rfl, rfl⟩
  | node u f one zero =>
    obtain ⟨b, pm, pmm, dm, dmm, rfl, h1, h2, h3, rfl, -⟩ := hh
    have e1 : pm = none ↔ one = .nil := (holds_none_iff h2).trans cells_nil
    have e2 : pmm = none ↔ zero = .nil := (holds_none_iff h3).trans cells_nil
    have hl : (PNode.node u f one zero).isLeafWith rest = true ↔ rest = f.str ∧ pm = none ∧ pmm = none := by
      rw [e1, e2]
      cases one <;> cases zero <;> simp [PNode.isLeafWith, eq_comm]
    right
    simp only [patDeleteChild, h1]
    by_cases hc : rest = f.str ∧ pm = none ∧ pmm = none
    · exact Or.inl ⟨by simp, hl.mpr hc, if_pos hc⟩
    · refine Or.inr ⟨by simp, Bool.eq_false_iff.mpr fun e => hc (hl.mp e), b, ?_⟩
      obtain ⟨h', i1, i2⟩ := hrec b rfl
      exact ⟨h', rfl, by rw [if_neg hc, i1], i2⟩

theorem patDelete_refines : ∀ (t : PNode) (h : Mem) (a : Nat) (d : List Nat) (fs : Str) (n : Nat),
    Holds h t.cells (some a) d → (∀ x ∈ d, x < h.next) → t.cells.count ≤ n →
    ∃ h', patDelete n h a fs = .ok h' ∧ Leaves h h' a d (t.delete fs).cells
  | .nil, _, _, _, _, _, hh, _, _ => by simp [Holds, PNode.cells] at hh
  | .node u f one zero, h, a, d, fs, n, hh, hd, hn => by
    have hh0 := hh
    obtain ⟨a', pm, pmm, dm, dmm, e1, h1, h2, h3, e2, h4, h5, h6⟩ := hh
    cases e1
    subst e2
    cases n with
    | zero => simp [SNode.count, PNode.cells] at hn
    | succ n =>
      simp only [PNode.cells, SNode.count] at hn
      have hnext : a < h.next := hd a (by simp)
      rw [patDelete, h1, PNode.delete.eq_def]
      dsimp only
      by_cases hp : hasPrefix fs f.str
      · rw [if_neg (not_not_intro hp), if_neg (not_not_intro hp)]
        by_cases he : fs = f.str
        · rw [if_pos he, if_pos he]
          cases one with
          | nil =>
            obtain ⟨rfl, rfl⟩ := h2
            cases zero with
            | nil =>
              obtain ⟨rfl, rfl⟩ := h3
              exact ⟨h, rfl, leaves_same hh0⟩
            | node u0 f0 o0 z0 =>
              obtain ⟨b, pm0, pmm0, dm0, dmm0, rfl, g1, g2, g3, rfl, g4, g5, g6⟩ := h3
              simp only [g1]
              have hna : ∀ x ∈ dm0 ++ dmm0, x ≠ a := by
                rintro x hx rfl
                exact h5 (List.mem_cons_of_mem _ hx)
              refine ⟨_, rfl, leaves_node (pm := pm0) (pmm := pmm0) (dm := dm0) (dmm := dmm0) hd (Nat.le_refl _) ?_ ?_
                (g2.frame ?_) (g3.frame ?_) ?_ ?_ g6 ?_⟩
              · simp [upd_get, h1]
              · intro x hx _; simp [upd_get, hx]
              · intro x hx; simp [upd_get, hna x (by simp [hx])]
              · intro x hx; simp [upd_get, hna x (by simp [hx])]
              · intro hx; exact hna a (by simp [hx]) rfl
              · intro hx; exact hna a (by simp [hx]) rfl
              · intro x hx; left
                simp only [List.nil_append]
                exact List.mem_cons_of_mem _ (List.mem_cons_of_mem _ hx)
          | node u1 f1 o1 z1 =>
            cases zero with
            | nil =>
              obtain ⟨rfl, rfl⟩ := h3
              obtain ⟨b, pm0, pmm0, dm0, dmm0, rfl, g1, g2, g3, rfl, g4, g5, g6⟩ := h2
              simp only [g1]
              have hna : ∀ x ∈ dm0 ++ dmm0, x ≠ a := by
                rintro x hx rfl
                exact h4 (List.mem_cons_of_mem _ hx)
              refine ⟨_, rfl, leaves_node (pm := pm0) (pmm := pmm0) (dm := dm0) (dmm := dmm0) hd (Nat.le_refl _) ?_ ?_
                (g2.frame ?_) (g3.frame ?_) ?_ ?_ g6 ?_⟩
              · simp [upd_get, h1]
              · intro x hx _; simp [upd_get, hx]
              · intro x hx; simp [upd_get, hna x (by simp [hx])]
              · intro x hx; simp [upd_get, hna x (by simp [hx])]
              · intro hx; exact hna a (by simp [hx]) rfl
              · intro hx; exact hna a (by simp [hx]) rfl
              · intro x hx; left
                simp only [List.append_nil]
                exact List.mem_cons_of_mem _ (List.mem_cons_of_mem _ hx)
            | node u0 f0 o0 z0 =>
              cases pm with
              | none => simp [PNode.cells, Holds] at h2
              | some b1 =>
                cases pmm with
                | none => simp [PNode.cells, Holds] at h3
                | some b0 =>
                  refine ⟨_, rfl, leaves_node (pm := some b1) (pmm := some b0) (dm := dm) (dmm := dmm) hd (Nat.le_refl _) ?_ ?_
                    (h2.frame ?_) (h3.frame ?_) h4 h5 h6 fun x hx => Or.inl (List.mem_cons_of_mem _ hx)⟩
                  · rw [upd_get, if_pos rfl, h1]; rfl
                  · intro x hx _; rw [upd_get, if_neg hx]
                  · intro x hx; rw [upd_get, if_neg]; rintro rfl; exact h4 hx
                  · intro x hx; rw [upd_get, if_neg]; rintro rfl; exact h5 hx
        · rw [if_neg he, if_neg he]
          by_cases hl : fs.length > f.size
          · rw [if_pos hl, if_pos hl]
            generalize hrest : fs.drop f.size = rest
            split
            · rename_i rest'
              rcases patDeleteChild_refines (rec := patDelete n) (cut := h.upd a fun c => { c with l := none })
                (rest := '1' :: rest') one h2 (fun b hb => patDelete_refines one h b dm _ n (hb ▸ h2)
                  (fun x hx => hd x (by simp [hx])) (by omega)) with
                ⟨rfl, i1⟩ | ⟨hne, hleaf, i1⟩ | ⟨hne, hleaf, b, h', rfl, i1, i2⟩
              · exact ⟨h, i1, leaves_same hh0⟩
              · refine ⟨_, i1, ?_⟩
                cases one with
                | nil => exact absurd rfl hne
                | node u1 f1 o1 z1 =>
                  simp only [hleaf, if_true]
                  refine leaves_node (pm := none) (pmm := pmm) (dm := []) (dmm := dmm) hd (Nat.le_refl _) ?_ ?_
                    ⟨rfl, rfl⟩ (h3.frame ?_) (by simp) h5 (by simp) fun x hx => Or.inl ?_
                  · rw [upd_get, if_pos rfl, h1]; rfl
                  · intro x hx _; rw [upd_get, if_neg hx]
                  · intro x hx; rw [upd_get, if_neg]; rintro rfl; exact h5 hx
                  · simp only [List.nil_append] at hx; simp [hx]
              · refine ⟨h', i1, ?_⟩
                cases one with
                | nil => exact absurd rfl hne
                | node u1 f1 o1 z1 =>
                  simp only [hleaf, Bool.false_eq_true, if_false]
                  exact leaves_left hd h1 h3 h4 h5 h6 i2
            · rename_i rest'
              rcases patDeleteChild_refines (rec := patDelete n) (cut := h.upd a fun c => { c with r := none })
                (rest := '0' :: rest') zero h3 (fun b hb => patDelete_refines zero h b dmm _ n (hb ▸ h3)
                  (fun x hx => hd x (by simp [hx])) (by omega)) with
                ⟨rfl, i1⟩ | ⟨hne, hleaf, i1⟩ | ⟨hne, hleaf, b, h', rfl, i1, i2⟩
              · exact ⟨h, i1, leaves_same hh0⟩
              · refine ⟨_, i1, ?_⟩
                cases zero with
                | nil => exact absurd rfl hne
                | node u1 f1 o1 z1 =>
                  simp only [hleaf, if_true]
                  refine leaves_node (pm := pm) (pmm := none) (dm := dm) (dmm := []) hd (Nat.le_refl _) ?_ ?_
                    (h2.frame ?_) ⟨rfl, rfl⟩ h4 (by simp) (by simp) fun x hx => Or.inl ?_
                  · rw [upd_get, if_pos rfl, h1]; rfl
                  · intro x hx _; rw [upd_get, if_neg hx]
                  · intro x hx; rw [upd_get, if_neg]; rintro rfl; exact h4 hx
                  · simp only [List.append_nil] at hx; simp [hx]
              · refine ⟨h', i1, ?_⟩
                cases zero with
                | nil => exact absurd rfl hne
                | node u1 f1 o1 z1 =>
                  simp only [hleaf, Bool.false_eq_true, if_false]
                  exact leaves_right hd h1 h2 h4 h5 h6 i2
            · rename_i n1 n0
              split
              · exact absurd rfl (n1 _)
              · exact absurd rfl (n0 _)
              · exact ⟨h, rfl, leaves_same hh0⟩
          · rw [if_neg hl, if_neg hl]
            exact ⟨h, rfl, leaves_same hh0⟩
      · rw [if_pos hp, if_pos hp]
        exact ⟨h, rfl, leaves_same hh0⟩

/-! ### searches -/

theorem patSearch_refines (id : List Byte) : ∀ (t : PNode) (h : Mem) (a : Nat) (d : List Nat) (n : Nat),
    Holds h t.cells (some a) d → t.cells.count ≤ n →
    patSearch n h a id = match t.search id with
      | none => .panic
      | some r => .ok r
  | .nil, _, _, _, _, hh, _ => by simp [Holds, PNode.cells] at hh
  | .node u f one zero, h, a, d, n, ⟨a', pm, pmm, dm, dmm, e1, h1, h2, h3, e2, h4, h5, h6⟩, hn => by
    cases e1
    cases n with
    | zero => simp [SNode.count, PNode.cells] at hn
    | succ n =>
      simp only [PNode.cells, SNode.count] at hn
      have e1 : pm ≠ none ↔ one ≠ .nil := not_congr ((holds_none_iff h2).trans cells_nil)
      have e2 : pmm ≠ none ↔ zero ≠ .nil := not_congr ((holds_none_iff h3).trans cells_nil)
      rw [patSearch, h1, PNode.search]
      dsimp only
      cases f.matchID id with
      | none => rfl
      | some b =>
        cases b with
        | false => rfl
        | true =>
          cases getNextBit id (f.offset + f.size) with
          | none => rfl
          | some nb =>
            dsimp only
            by_cases c1 : nb = '1' ∧ one ≠ .nil
            · rw [if_pos c1, if_pos ⟨c1.1, e1.mpr c1.2⟩]
              cases pm with
              | none => exact absurd rfl (e1.mpr c1.2)
              | some b =>
                rw [Out.ifNotNil]
                rw [patSearch_refines id one h b dm n h2 (by omega)]
                cases one.search id <;> rfl
            · rw [if_neg c1, if_neg (fun c => c1 ⟨c.1, e1.mp c.2⟩)]
              by_cases c0 : nb = '0' ∧ zero ≠ .nil
              · rw [if_pos c0, if_pos ⟨c0.1, e2.mpr c0.2⟩]
                cases pmm with
                | none => exact absurd rfl (e2.mpr c0.2)
                | some b =>
                  rw [Out.ifNotNil]
                  rw [patSearch_refines id zero h b dmm n h3 (by omega)]
                  cases zero.search id <;> rfl
              · rw [if_neg c0, if_neg (fun c => c0 ⟨c.1, e2.mp c.2⟩)]

/-! ### construction -/

open PNode in
theorem patBuild_refines (bsub : FlatSubs) : ∀ (n : Nat) (pre : Str) (h : Mem) (a : Nat) (u : Str) (f : Option FilterObject),
    pre.length ≤ maxKeyLength bsub → maxKeyLength bsub < pre.length + n →
    h.get a = some ⟨u, f, none, none⟩ → a < h.next →
    ∃ h' p1 p0 d1 d0, patBuild bsub n h a pre = .ok h' ∧ h'.get a = some ⟨u, f, p1, p0⟩ ∧
      Holds h' (build bsub n pre).1.cells p1 d1 ∧ Holds h' (build bsub n pre).2.cells p0 d0 ∧
      (∀ x ∈ d1 ++ d0, h.next ≤ x ∧ x < h'.next) ∧ (∀ x ∈ d1, x ∉ d0) ∧ Changes h h' [a]
  | 0, _, _, _, _, _, h1, h2, _, _ => by omega
  | n + 1, pre, h, a, u, f, hle, hlt, ha, hnext => by
    -- one branch
    have key : ∀ (c : Char) (h : Mem) (set : Mem → Nat → Mem) (c1 : Nat → Cell), a < h.next →
        (∀ g x, x ≠ a → ∀ y, (set g y).get x = g.get x) → (∀ g y, (set g y).next = g.next) →
        (∀ g y, g.get a = h.get a → (set g y).get a = some (c1 y)) →
        ∃ h' p d, patBuildChild (patBuild bsub n) bsub h set pre (branch c pre (mapKeys bsub)) = .ok h' ∧
          ((p = none ∧ h'.get a = h.get a) ∨ ∃ y, p = some y ∧ h'.get a = some (c1 y)) ∧
          Holds h' (buildChild bsub n pre c).cells p d ∧ (∀ x ∈ d, h.next ≤ x ∧ x < h'.next) ∧ Changes h h' [a] := by
      intro c h set c1 hnext s1 s2 s3
      unfold patBuildChild buildChild
      by_cases hb : (branch c pre (mapKeys bsub)).length ≠ 0
      · rw [if_pos hb, if_pos hb]
        dsimp only
        have hx2 : h.alloc.2 = h.next := rfl
        have hne : h.next ≠ a := by omega
        rw [hx2]
        generalize hg : ((set h.alloc.1 h.next).upd h.next fun c' =>
          { c' with f := some (newFilter (branch c pre (mapKeys bsub)) pre.length) }).setUri h.next
            (mapGet bsub (pre ++ branch c pre (mapKeys bsub))) = g
        have q1 : g.get h.next = some ⟨(mapGet bsub (pre ++ branch c pre (mapKeys bsub))).getD [],
            some (newFilter (branch c pre (mapKeys bsub)) pre.length), none, none⟩ := by
          rw [← hg]
          cases mapGet bsub (pre ++ branch c pre (mapKeys bsub)) <;>
            simp [Mem.setUri, upd_get, s1 _ _ hne, alloc_get]
        have q2 : ∀ x, x ≠ a → x ≠ h.next → g.get x = h.get x := by
          intro x e1 e2
          rw [← hg]
          cases mapGet bsub (pre ++ branch c pre (mapKeys bsub)) <;>
            simp [Mem.setUri, upd_get, s1 _ _ e1, alloc_get, e2]
        have q3 : g.get a = some (c1 h.next) := by
          rw [← hg]
          cases mapGet bsub (pre ++ branch c pre (mapKeys bsub)) <;>
            simp [Mem.setUri, upd_get, Ne.symm hne, s3 _ _ (by rw [alloc_get, if_neg (Ne.symm hne)])]
        have q4 : g.next = h.next + 1 := by
          rw [← hg]
          cases mapGet bsub (pre ++ branch c pre (mapKeys bsub)) <;> simp [Mem.setUri, upd_next, s2, Mem.alloc]
        have hcum : (pre ++ branch c pre (mapKeys bsub)).length ≤ maxKeyLength bsub := by
          rcases branch_spec c pre (mapKeys bsub) with h | ⟨-, -, p, hp, hpre⟩
          · exact absurd (by rw [h.1]; rfl) hb
          · have := key_len hp
            have := hpre.length_le
            simp only [List.length_append] at *
            omega
        obtain ⟨h', p1, p0, d1, d0, i1, i2, i3, i4, i5, i6, i7, i8⟩ := patBuild_refines bsub n
          (pre ++ branch c pre (mapKeys bsub)) g h.next _ _ hcum (by simp only [List.length_append]; omega) q1 (by omega)
        refine ⟨h', some h.next, h.next :: (d1 ++ d0), i1, Or.inr ⟨_, rfl, ?_⟩, ?_, ?_, ?_, ?_⟩
        · rw [i8 a (by simpa using Ne.symm hne) (by omega), q3]
        · refine ⟨h.next, p1, p0, d1, d0, rfl, i2, i3, i4, rfl, ?_, ?_, i6⟩
          · intro hx; have := i5 _ (List.mem_append_left _ hx); omega
          · intro hx; have := i5 _ (List.mem_append_right _ hx); omega
        · intro x hx
          rcases List.mem_cons.mp hx with rfl | hx
          · omega
          · have := i5 x hx; omega
        · omega
        · intro x hx hl'
          simp only [List.mem_singleton] at hx
          rw [i8 x (by simp; omega) (by omega), q2 x hx (by omega)]
      · rw [if_neg hb, if_neg hb]
        exact ⟨h, none, [], rfl, Or.inl ⟨rfl, rfl⟩, ⟨rfl, rfl⟩, by simp, Nat.le_refl _, fun _ _ _ => rfl⟩
    rw [patBuild, build_succ]
    obtain ⟨g, p1, d1, i1, i2, i3, i4, i5, i6⟩ := key '1' h (fun h x => h.upd a fun c => { c with l := some x })
      (fun y => ⟨u, f, some y, none⟩) hnext (fun g x hx y => by rw [upd_get, if_neg hx]) (fun _ _ => rfl)
      (fun g y hg => by rw [upd_get, if_pos rfl, hg, ha]; rfl)
    have hga : g.get a = some ⟨u, f, p1, none⟩ := by
      rcases i2 with ⟨rfl, e⟩ | ⟨y, rfl, e⟩
      · rw [e, ha]
      · exact e
    obtain ⟨h', p0, d0, j1, j2, j3, j4, j5, j6⟩ := key '0' g (fun h x => h.upd a fun c => { c with r := some x })
      (fun y => ⟨u, f, p1, some y⟩) (by omega) (fun g x hx y => by rw [upd_get, if_neg hx]) (fun _ _ => rfl)
      (fun g' y hg => by rw [upd_get, if_pos rfl, hg, hga]; rfl)
    have ha' : h'.get a = some ⟨u, f, p1, p0⟩ := by
      rcases j2 with ⟨rfl, e⟩ | ⟨y, rfl, e⟩
      · rw [e, hga]
      · exact e
    refine ⟨h', p1, p0, d1, d0, ?_, ha', i3.frame ?_, j3, ?_, ?_, ?_, ?_⟩
    · rw [i1]; exact j1
    · intro x hx
      have := i4 x hx
      exact j6 x (by simp; omega) (by omega)
    · intro x hx
      rcases List.mem_append.mp hx with hx | hx
      · have := i4 x hx; omega
      · have := j4 x hx; omega
    · intro x hx hx'
      have := i4 x hx; have := j4 x hx'; omega
    · omega
    · intro x hx hl
      rw [j6 x hx (by omega), i6 x hx hl]

end Gosstrak
