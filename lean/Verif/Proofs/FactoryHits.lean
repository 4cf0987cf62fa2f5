import Verif.Proofs.FactoryMatched

namespace Gosstrak
namespace World
variable {F : Type} {c : Config F} {sub : Subs} {w w' : World F} {l : Label}

theorem reportedMatches_snoc (n : Str) (sent : List (Msg F)) (m : Msg F) :
    reportedMatches n (sent ++ [m]) = reportedMatches n sent +
      (match m.trafficOf n with | some p => p.2 | none => 0) := by
  unfold reportedMatches
  rw [List.filterMap_append, List.map_append, List.sum_append]
  congr 1
  cases h : m.trafficOf n <;> simp [h]

/-- every search that found something is accounted for -/
def Accounted (w : World F) : Prop :=
  ∀ n, reportedMatches n w.sent + (w.gens n).unreportedMatches + w.searcher.counting n = w.hits n

theorem Accounted.same (h : Accounted w) (h1 : w'.sent = w.sent)
    (h2 : ∀ n, (w'.gens n).unreportedMatches = (w.gens n).unreportedMatches)
    (h3 : w'.searcher = w.searcher) (h4 : w'.hits = w.hits) : Accounted w' := by
  intro n
  rw [h1, h2, h3, h4]
  exact h n

theorem upd_unreported (k : Str) (g : Gen F) (h : g.unreportedMatches = (w.gens k).unreportedMatches) (n : Str) :
    (upd w.gens k g n).unreportedMatches = (w.gens n).unreportedMatches :=
  upd_cases (P := fun a b => a.unreportedMatches = b.unreportedMatches) w.gens k g h (fun _ => rfl) n

theorem Accounted.step (h : Accounted w) (hm : Matched w) (ha : Apart w)
    (hs : World.step c w l = some w') : Accounted w' := by
  cases l with
  | listener =>
    simp only [World.step, World.listenerStep] at hs
    split at hs
    case h_7 m e =>
      obtain ⟨w1, h1, rfl⟩ := Option.map_eq_some_iff.mp hs
      rw [push_eq h1]; exact h
    all_goals (repeat' split at hs) <;> cases hs <;> exact h
  | selector =>
    simp only [World.step, World.selectorStep] at hs
    split at hs
    case h_7 m e =>
      obtain ⟨w1, h1, rfl⟩ := Option.map_eq_some_iff.mp hs
      rw [push_eq h1]; exact h
    all_goals (repeat' split at hs) <;> cases hs <;> exact h
  | manageAdd p u => rw [push_eq (m := .add p u) hs]; exact h
  | manageDelete p u => rw [push_eq (m := .delete p u) hs]; exact h
  | init k =>
    simp only [World.step] at hs
    split at hs <;> cases hs
    exact h.same rfl (upd_unreported k _ rfl) rfl rfl
  | build k =>
    simp only [World.step] at hs
    split at hs <;> cases hs
    exact h.same rfl (upd_unreported k _ rfl) rfl rfl
  | deploy k =>
    simp only [World.step] at hs
    split at hs <;> cases hs
    exact h.same rfl (upd_unreported k _ rfl) rfl rfl
  | recvGenerated k =>
    simp only [World.step] at hs
    split at hs <;> cases hs
    exact h.same rfl (upd_unreported k _ rfl) rfl rfl
  | genTick k =>
    simp only [World.step] at hs
    split at hs <;> try cases hs
    rename_i em
    split at hs <;> cases hs
    exact h.same rfl (upd_unreported k _ (by simp [Gen.unreportedMatches, em])) rfl rfl
  | genCompute k =>
    simp only [World.step] at hs
    split at hs <;> try cases hs
    rename_i em
    split at hs <;> cases hs <;>
      exact h.same rfl (upd_unreported k _ (by simp [Gen.unreportedMatches, em])) rfl rfl
  | genReset k =>
    simp only [World.step] at hs
    split at hs <;> cases hs
    rename_i em
    exact h.same rfl (upd_unreported k _ (by simp [Gen.unreportedMatches, em])) rfl rfl
  | recvTraffic k =>
    simp only [World.step] at hs
    split at hs <;> cases hs
    rename_i a b e1 em
    intro n
    have := h n
    simp only [reportedMatches_snoc, World.setGen]
    by_cases en : n = k
    · subst en
      simp only [Gen.unreportedMatches, em] at this
      simp only [upd_same, Msg.trafficOf, if_true, Gen.unreportedMatches]
      omega
    · simp only [upd_other _ _ en, Msg.trafficOf, if_neg (Ne.symm en)]
      omega
  | recvStatus k =>
    simp only [World.step] at hs
    split at hs <;> cases hs
    rename_i v e1 em
    intro n
    have := h n
    simp only [reportedMatches_snoc, World.setGen, Msg.trafficOf]
    rw [upd_unreported k _ (by simp [Gen.unreportedMatches, em])]
    omega
  | engineSearch found =>
    simp only [World.step] at hs
    split at hs <;> try cases hs
    rename_i k r e
    split at hs
    · cases hs; exact h
    split at hs <;> cases hs
    · intro n
      have := h n
      simp only [e, Searcher.counting] at this
      by_cases en : n = k
      · subst en; simp [upd_same, Searcher.counting]; omega
      · simp [upd_other _ _ en, Searcher.counting, Ne.symm en]; omega
    · intro n
      have := h n
      simp only [e, Searcher.counting] at this
      simpa [Searcher.counting] using this
  | readMatched =>
    simp only [World.step] at hs
    split at hs <;> cases hs
    rename_i k r e
    intro n
    have := h n
    simpa only [e, Searcher.counting] using this
  | writeMatched =>
    simp only [World.step] at hs
    split at hs <;> cases hs
    rename_i k r m e
    have hv := hm.write k r m e
    have hw : (w.gens k).monitor = .waiting := Classical.byContradiction fun hc =>
      ha k hc (by rw [e]; rfl)
    intro n
    have := h n
    simp only [e, Searcher.counting] at this
    simp only [World.setGen]
    by_cases en : n = k
    · subst en
      simp only [Gen.unreportedMatches, hw, if_true] at this
      simp only [upd_same, Gen.unreportedMatches, hw, Searcher.counting]
      omega
    · simp only [if_neg (Ne.symm en)] at this
      simpa only [upd_other _ _ en, Searcher.counting] using this
  | track t =>
    simp only [World.step] at hs
    split at hs <;> try cases hs
    rename_i k r e
    split at hs <;> cases hs
    rename_i em
    intro n
    have := h n
    simp only [e, Searcher.counting] at this
    simp only [World.setGen]
    rw [upd_unreported k _ (by simp [Gen.unreportedMatches])]
    cases r <;> simpa [Searcher.counting, resume] using this
  | search order =>
    simp only [World.step] at hs
    (repeat' split at hs) <;> cases hs
    rename_i e _
    intro n
    have := h n
    simpa only [e, Searcher.counting] using this
  | searchNext =>
    simp only [World.step] at hs
    split at hs <;> try cases hs
    all_goals
      rename_i e
      split at hs <;> cases hs
    all_goals first
      | exact h
      | (intro n; have := h n; simpa only [e, Searcher.counting] using this)
  | _ =>
    simp only [World.step] at hs
    (repeat' split at hs) <;> cases hs <;> exact h

theorem ReachesApart.accounted (h : ReachesApart c sub w) : Accounted w := by
  induction h with
  | start => intro n; simp [World.start, reportedMatches, Gen.unreportedMatches, Searcher.counting]
  | step h1 _ h3 h4 ih => exact ih.step (ReachesApart.matched h1) (ReachesApart.apart h1) h3

end World
end Gosstrak
