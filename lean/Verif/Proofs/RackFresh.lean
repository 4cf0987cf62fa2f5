import Verif.Proofs.RackUpdate
import Verif.Proofs.ShelfForks

/-! The groups of a fresh splay tree. -/
namespace Gosstrak

open SNode

theorem wf_under : ∀ (t : SNode) (P : Str), WF P t → (∀ k ∈ chain t, k ≠ []) → Under 0 P t
  | .nil, _, _, _ => trivial
  | .node _ none _ _, _, h, _ => h.elim
  | .node u (some f) m mm, P, ⟨h1, h2, h3, h4, h5, h6⟩, hn => by
    refine ⟨h1, by rw [Nat.zero_add]; exact h2, hn f.str (by simp [chain]), ?_, wf_under m _ h5 h4,
      wf_under mm _ h6 fun k hk => hn k (by simp [chain, hk])⟩
    intro e he
    exact (scontent_rest h3 he).1

theorem wf_ranked : ∀ (t : SNode), WF [] t → Ranked t
  | .nil, _ => trivial
  | .node _ none _ _, h => h.elim
  | .node u (some f) m mm, ⟨h1, h2, h3, h4, h5, h6⟩ => by
    have ho : f.offset = 0 := by rw [h2]; rfl
    exact ⟨h1, by rw [ho]; exact h2, by rw [ho]; exact wf_under m f.str h5 h4, wf_ranked mm h6⟩

theorem append_lt_of_apart {a c : Str} (h : a < c) (hp : ¬ a <+: c) (x y : Str) : a ++ x < c ++ y := by
  induction a generalizing c with
  | nil => exact absurd List.nil_prefix hp
  | cons i a ih =>
    cases c with
    | nil => exact absurd h (by simp)
    | cons j c =>
      rcases List.cons_lt_cons_iff.mp h with h1 | ⟨rfl, h1⟩
      · exact List.cons_lt_cons_iff.mpr (Or.inl h1)
      · refine List.cons_lt_cons_iff.mpr (Or.inr ⟨rfl, ih h1 fun h' => hp ?_⟩)
        simpa using h'

theorem content_asc : ∀ (t : SNode) (P : Str), WF P t → AscTree t →
    ((content P t).map Prod.fst).Pairwise (· < ·)
  | .nil, _, _, _ => List.Pairwise.nil
  | .node _ none _ _, _, h, _ => h.elim
  | .node u (some f) m mm, P, ⟨h1, h2, h3, h4, h5, h6⟩, ⟨a1, a2, a3⟩ => by
    rw [chain, List.pairwise_cons] at a1
    have later : ∀ (x : Str), ∀ e ∈ content P mm, P ++ f.str ++ x < e.1 := by
      intro x e he
      obtain ⟨k, hk, y, hy⟩ := scontent_chain mm P e he
      rw [← hy, List.append_assoc, List.append_assoc]
      exact append_lt (append_lt_of_apart (a1.1 k hk) (h3 k hk).1 x y)
    simp only [content, List.map_cons, List.map_append, List.pairwise_cons, List.pairwise_append,
      List.mem_append, List.mem_map]
    refine ⟨?_, content_asc m _ h5 a2, content_asc mm _ h6 a3, ?_⟩
    · rintro _ (⟨e, he, rfl⟩ | ⟨e, he, rfl⟩)
      · have := scontent_below h4 he
        exact lt_of_proper_prefix this.1 this.2
      · have := later [] e he
        rwa [List.append_nil] at this
    · rintro _ ⟨e, he, rfl⟩ _ ⟨e', he', rfl⟩
      obtain ⟨x, hx⟩ := group_prefix he
      rw [← hx]
      exact later x e' he'

theorem rack_fresh : ∀ (t : SNode), WF [] t →
    t.rack = (chain t).map fun k => (0, (content [] t).filter fun e => k <+: e.1)
  | .nil, _ => rfl
  | .node _ none _ _, h => h.elim
  | .node u (some f) m mm, ⟨h1, h2, h3, h4, h5, h6⟩ => by
    have ho : f.offset = 0 := by rw [h2]; rfl
    rw [rack, chain, List.map_cons, rack_fresh mm h6, ho, content]
    have hA : ∀ e ∈ ([] ++ f.str, u) :: content ([] ++ f.str) m, f.str <+: e.1 := by
      intro e he
      rcases List.mem_cons.mp he with rfl | he
      · exact List.prefix_rfl
      · exact group_prefix he
    rw [← List.cons_append]
    simp only [List.filter_append]
    congr 1
    · congr 1
      rw [List.filter_eq_self.mpr (by simpa using hA), List.filter_eq_nil_iff.mpr, List.append_nil]
      · rfl
      · intro e he
        have := (scontent_rest h3 he).1
        simpa using this
    · apply List.map_congr_left
      intro k hk
      have hno : (([] ++ f.str, u) :: content ([] ++ f.str) m).filter (fun e => k <+: e.1) = [] := by
        rw [List.filter_eq_nil_iff]
        intro e he
        simp only [decide_eq_true_eq]
        intro h
        rcases prefix_or_prefix (hA e he) h with h' | h'
        · exact (h3 k hk).1 h'
        · exact (h3 k hk).2 h'
      rw [hno, List.nil_append]

theorem pairs_ext {l l' : FlatSubs} (h : (l.map Prod.fst).Pairwise (· < ·)) (h' : (l'.map Prod.fst).Pairwise (· < ·))
    (hk : ∀ e, e ∈ l ↔ e ∈ l') : l = l' := by
  induction l generalizing l' with
  | nil =>
    cases l' with
    | nil => rfl
    | cons e l' => exact absurd ((hk e).mpr (by simp)) (by simp)
  | cons e l ih =>
    cases l' with
    | nil => exact absurd ((hk e).mp (by simp)) (by simp)
    | cons e' l' =>
      rw [List.map_cons, List.pairwise_cons] at h h'
      have hee : e = e' := by
        rcases List.mem_cons.mp ((hk e).mp (by simp)) with h1 | h1
        · exact h1
        · rcases List.mem_cons.mp ((hk e').mpr (by simp)) with h2 | h2
          · exact h2.symm
          · exact absurd (List.lt_trans (h.1 _ (List.mem_map_of_mem h2)) (h'.1 _ (List.mem_map_of_mem h1)))
              (List.lt_irrefl _)
      subst hee
      congr 1
      refine ih h.2 h'.2 fun x => ⟨fun hx => ?_, fun hx => ?_⟩
      · rcases List.mem_cons.mp ((hk x).mp (by simp [hx])) with rfl | h2
        · exact absurd (h.1 _ (List.mem_map_of_mem hx)) (List.lt_irrefl _)
        · exact h2
      · rcases List.mem_cons.mp ((hk x).mpr (by simp [hx])) with rfl | h2
        · exact absurd (h'.1 _ (List.mem_map_of_mem hx)) (List.lt_irrefl _)
        · exact h2

theorem inOrder_fst (b : FlatSubs) : (inOrder b).map Prod.fst = mapKeys b := by
  unfold inOrder
  rw [List.map_map]
  exact List.map_id _

theorem mem_inOrder {b : FlatSubs} (hm : IsMap b) (e : Str × Str) : e ∈ inOrder b ↔ e ∈ b := by
  unfold inOrder
  rw [List.mem_map]
  constructor
  · rintro ⟨k, hk, rfl⟩
    exact uriOf_mem hk
  · intro h
    exact ⟨e.1, key_of_mem h, by rw [uriOf_eq hm (k := e.1) (u := e.2) h]⟩

/-- a fresh tree has the fresh groups -/
theorem fresh_ranked {b : FlatSubs} (hm : IsMap b) (hb : b ≠ []) (hbit : ∀ k u, (k, u) ∈ b → IsBitStr k) :
    ∃ t, newSplayFrom b = some t ∧ t ≠ .nil ∧ Ranked t ∧ t.rack = freshRack b := by
  obtain ⟨t, h1, h2, h3, h4⟩ := sstores_fresh b hm hb hbit
  have hasc := newSplay_asc hm hb h1
  refine ⟨t, h1, h2, wf_ranked t h3, ?_⟩
  have hc : content [] t = inOrder b := by
    refine pairs_ext (content_asc t [] h3 hasc) ?_ fun e => ?_
    · rw [inOrder_fst]
      exact mapKeys_lt hm
    · rw [mem_inOrder hm]
      exact h4 e.1 e.2
  have hkey : ∀ k, k ∈ (content [] t).map Prod.fst ↔ k ∈ mapKeys b := by
    intro k
    rw [hc, inOrder_fst]
  have hch : chain t = (mapKeys b).filter fun k => parentOf b k = none := by
    obtain ⟨a1, a2, a3⟩ := annot_spec hm t [] none h3 (fun k u h => mapGet_of_mem hm ((h4 k u).mp h))
      (Or.inl ⟨rfl, rfl⟩) (by
        intro e _ p hp _
        exact Or.inl ((hkey p).mpr hp))
    have hid : (annot [] t).chain = chain t := by
      rw [annot_chain]
      simp
    have c1 := (annot_asc t [] hasc).1
    rw [hid] at c1 a2
    refine ascending_ext c1 ((mapKeys_lt hm).filter _) fun k => ?_
    rw [List.mem_filter, decide_eq_true_iff]
    constructor
    · intro h
      obtain ⟨u, hu⟩ := chain_content t [] k h
      exact ⟨(hkey k).mp (List.mem_map_of_mem (f := Prod.fst) hu), a2 k h⟩
    · rintro ⟨h, hp⟩
      have := (hkey k).mpr h
      rw [← annot_keys] at this
      rcases keys_placed _ this with h | ⟨e, he, h⟩
      · rwa [hid] at h
      · rw [a3 e he k h] at hp; cases hp
  rw [rack_fresh t h3, hc, hch]
  rfl

end Gosstrak
