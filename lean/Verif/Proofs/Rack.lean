import Verif.Spec.Rack
import Verif.Proofs.ShelfFresh

/-! A splay tree under any calls is a row of groups: one per node on the outermost chain. -/
namespace Gosstrak

open SNode

/-- the groups of a tree -/
def SNode.rack : SNode → Rack
  | .node u (some f) m mm => (f.offset, (f.str, u) :: content f.str m) :: rack mm
  | _ => []

/-- below the outermost chain, in a group at the place `p` with the filter `P` above: filters sit where those
    above end and are not empty, and no filter of a chain starts what comes later in the chain or below that -/
def Under (p : Nat) : Str → SNode → Prop
  | _, .nil => True
  | _, .node _ none _ _ => False
  | P, .node _ (some f) m mm =>
    IsBitStr f.str ∧ f = newFilter f.str (p + P.length) ∧ f.str ≠ [] ∧
    (∀ e ∈ content P mm, ¬ P ++ f.str <+: e.1) ∧ Under p (P ++ f.str) m ∧ Under p P mm

/-- the outermost chain: any places -/
def Ranked : SNode → Prop
  | .nil => True
  | .node _ none _ _ => False
  | .node _ (some f) m mm =>
    IsBitStr f.str ∧ f = newFilter f.str f.offset ∧ Under f.offset f.str m ∧ Ranked mm

theorem group_prefix {t : SNode} {P : Str} {e : Str × Str} (h : e ∈ content P t) : P <+: e.1 := by
  obtain ⟨k, -, hk⟩ := scontent_chain t P e h
  exact (List.prefix_append _ _).trans hk

theorem content_shift : ∀ (t : SNode) (P s : Str),
    (content (P ++ s) t).map (fun e => (e.1.drop P.length, e.2)) = content s t
  | .nil, _, _ => rfl
  | .node _ none _ _, _, _ => rfl
  | .node u (some f) m mm, P, s => by
    simp only [content, List.map_cons, List.map_append, content_shift mm P s]
    rw [List.append_assoc, List.drop_left, content_shift m P (s ++ f.str)]

/-- entries of a group strictly extend what they are below -/
theorem under_content {p : Nat} : ∀ {t : SNode} {P : Str}, Under p P t → ∀ e ∈ content P t, P <+: e.1 ∧ e.1 ≠ P
  | .nil, _, _, e, h => by simp [content] at h
  | .node _ none _ _, _, h, _, _ => h.elim
  | .node u (some f) m mm, P, ⟨_, _, hne, _, hm, hmm⟩, e, h => by
    simp only [content, List.mem_cons, List.mem_append] at h
    rcases h with rfl | h | h
    · exact ⟨List.prefix_append _ _, by simpa using hne⟩
    · refine ⟨(List.prefix_append _ _).trans (under_content hm e h).1, fun h1 => ?_⟩
      have := (under_content hm e h).1.length_le
      rw [h1] at this
      have := List.length_pos_iff.mpr hne
      simp at *
      omega
    · exact under_content hmm e h

/-! ### the comparison at a place -/

theorem drop_drop_prefix {B P : Str} (h : P <+: B) (s : Str) : s <+: B.drop P.length ↔ P ++ s <+: B := by
  obtain ⟨C, rfl⟩ := h
  rw [List.drop_left, List.prefix_append_right_inj]

theorem label_at {s P : Str} {p : Nat} {id : List Byte} (hs : IsBitStr s) (hne : s ≠ [] ∨ P = [])
    (hP : P <+: (bitsOf id).drop p) :
    (newFilter s (p + P.length)).matchID id =
      if CutBy ((bitsOf id).drop p) (P ++ s) then none
      else some (decide (P ++ s <+: (bitsOf id).drop p)) := by
  have hlenB : ((bitsOf id).drop p).length = 8 * id.length - p := by rw [List.length_drop, length_bitsOf]
  have hPl : P.length ≤ 8 * id.length - p := hlenB ▸ hP.length_le
  by_cases hcv : Covers s (p + P.length) id
  · have hnc : ¬ CutBy ((bitsOf id).drop p) (P ++ s) := by
      rintro (h | ⟨h1, h2⟩)
      · have h3 := congrArg List.length h
        rw [hlenB] at h3
        have := hcv.1
        have := hcv.2
        simp at h3
        omega
      · apply h2
        refine h1.eq_of_length (Nat.le_antisymm h1.length_le ?_)
        have := hcv.1
        have := hcv.2
        rw [List.length_append, hlenB]
        omega
    rw [if_neg hnc, matchID_drop hs hcv, ← List.drop_drop]
    congr 1
    exact decide_eq_decide.mpr (drop_drop_prefix hP s)
  · obtain ⟨m1, m2⟩ := C02_short_id_exact s hs.filterStr (p + P.length) id hcv
    rw [← labelTests_carries hs] at m1 m2
    have hns : ¬ P ++ s <+: (bitsOf id).drop p ∨ (bitsOf id).drop p = [] := by
      by_cases hB : (bitsOf id).drop p = []
      · exact Or.inr hB
      · refine Or.inl fun h => hcv ?_
        have h1 := h.length_le
        have h2 := List.length_pos_iff.mpr hB
        rw [hlenB] at h1 h2
        rw [List.length_append] at h1
        refine ⟨by omega, ?_⟩
        rcases hne with h | rfl
        · have := List.length_pos_iff.mpr h
          omega
        · simp
          omega
    have hcut : LabelTests (bitsOf id) s (p + P.length) ↔ CutBy ((bitsOf id).drop p) (P ++ s) := by
      unfold LabelTests
      rw [length_bitsOf]
      constructor
      · intro h
        by_cases hB : (bitsOf id).drop p = []
        · exact Or.inl hB
        refine Or.inr ⟨?_, ?_⟩
        · have hn := hns.resolve_right hB
          have hlt : ((bitsOf id).drop p).length < (P ++ s).length := by
            rw [hlenB, List.length_append]
            have hpos := List.length_pos_iff.mpr hB
            rw [hlenB] at hpos
            refine Classical.byContradiction fun hc => hcv ⟨by omega, ?_⟩
            rcases hne with h | rfl
            · have := List.length_pos_iff.mpr h
              omega
            · simp
              omega
          rw [List.prefix_iff_getElem?]
          intro i hi
          rw [← List.getElem?_eq_getElem hi]
          by_cases hiP : i < P.length
          · rw [List.getElem?_append_left hiP]
            exact ((List.prefix_iff_getElem?.mp hP) i hiP).symm ▸ (List.getElem?_eq_getElem hiP)
          · rw [List.getElem?_append_right (by omega), List.getElem?_drop]
            have := h (i - P.length) (by rw [List.length_append] at hlt; omega) (by rw [hlenB] at hi; omega)
            rw [← this]
            congr 1
            omega
        · intro h
          exact (hns.resolve_right hB) (h ▸ List.prefix_rfl)
      · rintro (h | ⟨h, -⟩) j hj hin
        · have := congrArg List.length h
          rw [hlenB] at this
          simp at this
          omega
        · have hi : p + P.length + j - p < ((bitsOf id).drop p).length := by rw [hlenB]; omega
          have := (List.prefix_iff_getElem?.mp h) (P.length + j) (by rw [hlenB]; omega)
          rw [List.getElem?_append_right (by omega), Nat.add_sub_cancel_left] at this
          rw [this, ← List.getElem?_eq_getElem, List.getElem?_drop, Nat.add_assoc]
    by_cases hc : CutBy ((bitsOf id).drop p) (P ++ s)
    · rw [if_pos hc]
      exact m1.mpr (hcut.mpr hc)
    · rw [if_neg hc, m2.mpr fun h => hc (hcut.mp h)]
      rcases hns with h | h
      · rw [decide_eq_false h]
      · exact absurd (Or.inl h) hc

end Gosstrak
