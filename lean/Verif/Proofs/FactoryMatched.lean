import Verif.Proofs.FactorySelect

namespace Gosstrak
namespace World
variable {F : Type} {c : Config F} {sub : Subs} {w w' : World F} {l : Label}

/-- matches counted in advance of their event -/
def ahead (n : Str) : Searcher → Nat
  | .track m _ => if m = n then 1 else 0
  | _ => 0

structure Matched (w : World F) : Prop where
  le : ∀ n, (w.gens n).matched ≤ (w.gens n).events + ahead n w.searcher
  write : ∀ n r m, w.searcher = .writeMatched n r m → m = (w.gens n).matched
  tick : ∀ n e m, (w.gens n).monitor = .sendTraffic e m → m ≤ e
  sent : ∀ n e m, Msg.traffic n e m ∈ w.sent → m ≤ e

theorem ahead_zero (n : Str) {s : Searcher} (h : s.inside ≠ some n) : ahead n s = 0 := by
  cases s <;> simp [ahead]
  rintro rfl
  exact h rfl

theorem Matched.same (h : Matched w)
    (hg : ∀ n, (w'.gens n).matched = (w.gens n).matched ∧ (w'.gens n).events = (w.gens n).events)
    (hm : ∀ n e m, (w'.gens n).monitor = .sendTraffic e m → (w.gens n).monitor = .sendTraffic e m)
    (hs : w'.searcher = w.searcher) (ht : w'.sent = w.sent) : Matched w' := by
  refine ⟨?_, ?_, ?_, ?_⟩
  · intro n; rw [(hg n).1, (hg n).2, hs]; exact h.le n
  · intro n r m e; rw [(hg n).1]; exact h.write n r m (by rw [← hs]; exact e)
  · intro n e m e'; exact h.tick n e m (hm n e m e')
  · rw [ht]; exact h.sent

theorem upd_cases {α : Type} {P : α → α → Prop} (f : Str → α) (k : Str) (g : α) (h : P g (f k))
    (h0 : ∀ x, P x x) (n : Str) : P (upd f k g n) (f n) := by
  by_cases e : n = k
  · subst e; rw [upd_same]; exact h
  · rw [upd_other _ _ e]; exact h0 _

theorem Matched.setGen (h : Matched w) (k : Str) (g : Gen F) (h1 : g.matched = (w.gens k).matched)
    (h2 : g.events = (w.gens k).events)
    (h3 : ∀ e m, g.monitor = .sendTraffic e m → (w.gens k).monitor = .sendTraffic e m) :
    Matched (w.setGen k g) := by
  refine h.same (w' := w.setGen k g) ?_ ?_ rfl rfl
  · exact upd_cases (P := fun a b => a.matched = b.matched ∧ a.events = b.events) w.gens k g ⟨h1, h2⟩
      (fun _ => ⟨rfl, rfl⟩)
  · exact upd_cases (P := fun a b => ∀ e m, a.monitor = .sendTraffic e m → b.monitor = .sendTraffic e m)
      w.gens k g h3 (fun _ _ _ h => h)

theorem Matched.congr (h : Matched w) (h1 : w'.gens = w.gens) (h2 : w'.searcher = w.searcher)
    (h3 : ∀ n e m, Msg.traffic n e m ∈ w'.sent → m ≤ e) : Matched w' :=
  ⟨by rw [h1, h2]; exact h.le, by rw [h1, h2]; exact h.write, by rw [h1]; exact h.tick, h3⟩

theorem Matched.step (h : Matched w) (ha : Apart w) (ha' : Apart w') (hs : World.step c w l = some w') :
    Matched w' := by
  cases l with
  | listener =>
    simp only [World.step, World.listenerStep] at hs
    split at hs
    case h_7 m e =>
      obtain ⟨w1, h1, rfl⟩ := Option.map_eq_some_iff.mp hs
      rw [push_eq h1]; exact h.congr rfl rfl h.sent
    all_goals (repeat' split at hs) <;> cases hs <;> exact h.congr rfl rfl h.sent
  | selector =>
    simp only [World.step, World.selectorStep] at hs
    split at hs
    case h_7 m e =>
      obtain ⟨w1, h1, rfl⟩ := Option.map_eq_some_iff.mp hs
      rw [push_eq h1]; exact h.congr rfl rfl h.sent
    all_goals (repeat' split at hs) <;> cases hs <;> exact h.congr rfl rfl h.sent
  | manageAdd p u => rw [push_eq (m := .add p u) hs]; exact h.congr rfl rfl h.sent
  | manageDelete p u => rw [push_eq (m := .delete p u) hs]; exact h.congr rfl rfl h.sent
  | init k =>
    simp only [World.step] at hs
    split at hs <;> cases hs
    exact h.setGen k _ rfl rfl (fun _ _ h => h)
  | build k =>
    simp only [World.step] at hs
    split at hs <;> cases hs
    exact h.setGen k _ rfl rfl (fun _ _ h => h)
  | deploy k =>
    simp only [World.step] at hs
    split at hs <;> cases hs
    exact h.setGen k _ rfl rfl (fun _ _ h => h)
  | recvGenerated k =>
    simp only [World.step] at hs
    split at hs <;> cases hs
    refine (h.setGen k { w.gens k with builder := .done } rfl rfl (fun _ _ h => h)).congr ?_ rfl h.sent
    rfl
  | recvTraffic k =>
    simp only [World.step] at hs
    split at hs <;> cases hs
    rename_i a b e1 e2
    refine (h.setGen k { w.gens k with monitor := .compute, batches := (w.gens k).batches ++ [(w.gens k).batch] }
      rfl rfl (fun _ _ h => (nomatch h))).congr rfl rfl ?_
    intro n e m hm
    rcases List.mem_append.mp hm with hm | hm
    · exact h.sent n e m hm
    · cases List.mem_singleton.mp hm
      exact h.tick k a b e2
  | recvStatus k =>
    simp only [World.step] at hs
    split at hs <;> cases hs
    rename_i a e1 e2
    refine (h.setGen k { w.gens k with monitor := .reset }
      rfl rfl (fun _ _ h => (nomatch h))).congr rfl rfl ?_
    intro n e m hm
    rcases List.mem_append.mp hm with hm | hm
    · exact h.sent n e m hm
    · cases List.mem_singleton.mp hm
  | genCompute k =>
    simp only [World.step] at hs
    split at hs <;> try cases hs
    split at hs <;> cases hs <;> exact h.setGen k _ rfl rfl (fun _ _ h => (nomatch h))
  | genTick k =>
    simp only [World.step] at hs
    split at hs <;> try cases hs
    split at hs <;> cases hs
    have hin : w.searcher.inside ≠ some k := ha' k (by simp [World.setGen, upd_same])
    have hle := h.le k
    rw [ahead_zero k hin] at hle
    refine ⟨?_, ?_, ?_, h.sent⟩
    · intro n
      by_cases en : n = k
      · subst en; simp only [World.setGen, upd_same]; exact h.le n
      · simp only [World.setGen, upd_other _ _ en]; exact h.le n
    · intro n r m e
      by_cases en : n = k
      · subst en; simp only [World.setGen, upd_same]; exact h.write n r m e
      · simp only [World.setGen, upd_other _ _ en]; exact h.write n r m e
    · intro n e m hm
      by_cases en : n = k
      · subst en
        simp only [World.setGen, upd_same] at hm
        cases hm
        exact hle
      · simp only [World.setGen, upd_other _ _ en] at hm
        exact h.tick n e m hm
  | genReset k =>
    simp only [World.step] at hs
    split at hs <;> cases hs
    rename_i em
    have hin : w.searcher.inside ≠ some k := ha k (by rw [em]; simp)
    refine ⟨?_, ?_, ?_, h.sent⟩
    · intro n
      by_cases en : n = k
      · subst en; simp [World.setGen, upd_same]
      · simp only [World.setGen, upd_other _ _ en]; exact h.le n
    · intro n r m e
      have en : n ≠ k := by
        rintro rfl
        exact hin (by rw [show w.searcher = .writeMatched n r m from e]; rfl)
      simp only [World.setGen, upd_other _ _ en]
      exact h.write n r m e
    · intro n e m hm
      by_cases en : n = k
      · subst en; simp [World.setGen, upd_same] at hm
      · simp only [World.setGen, upd_other _ _ en] at hm
        exact h.tick n e m hm
  | search order =>
    simp only [World.step] at hs
    (repeat' split at hs) <;> cases hs
    rename_i e _
    exact ⟨fun n => by simpa [e, ahead] using h.le n, fun _ _ _ h => (nomatch h), h.tick, h.sent⟩
  | searchNext =>
    simp only [World.step] at hs
    split at hs <;> try cases hs
    all_goals
      rename_i e
      split at hs <;> cases hs
    all_goals first
      | exact h.congr rfl rfl h.sent
      | exact ⟨fun n => by simpa [e, ahead] using h.le n, fun _ _ _ h => (nomatch h), h.tick, h.sent⟩
  | engineSearch found =>
    simp only [World.step] at hs
    split at hs <;> try cases hs
    rename_i n r e
    split at hs
    · cases hs; exact h.congr rfl rfl h.sent
    split at hs <;> cases hs
    · exact ⟨fun n => by simpa [e, ahead] using h.le n, fun _ _ _ h => (nomatch h), h.tick, h.sent⟩
    · refine ⟨fun n => ?_, fun _ _ _ h => (nomatch h), h.tick, h.sent⟩
      have := h.le n
      rw [e] at this
      simp only [ahead] at this
      exact Nat.le_trans this (Nat.le_add_right _ _)
  | readMatched =>
    simp only [World.step] at hs
    split at hs <;> cases hs
    rename_i n r e
    refine ⟨fun n => by simpa [e, ahead] using h.le n, ?_, h.tick, h.sent⟩
    intro k r' m e'
    cases e'
    rfl
  | writeMatched =>
    simp only [World.step] at hs
    split at hs <;> cases hs
    rename_i k r m e
    have hm := h.write k r m e
    refine ⟨?_, fun _ _ _ h => (nomatch h), ?_, h.sent⟩
    · intro n
      have := h.le n
      rw [e] at this
      by_cases en : n = k
      · subst en
        simp [World.setGen, upd_same, ahead] at this ⊢
        omega
      · simp only [World.setGen, upd_other _ _ en]
        exact Nat.le_trans this (Nat.add_le_add_left (by simp [ahead]) _)
    · intro n a b
      by_cases en : n = k
      · subst en; simp only [World.setGen, upd_same]; exact h.tick n a b
      · simp only [World.setGen, upd_other _ _ en]; exact h.tick n a b
  | track t =>
    simp only [World.step] at hs
    split at hs <;> try cases hs
    rename_i k r e
    split at hs <;> cases hs
    rename_i em
    refine ⟨?_, ?_, ?_, h.sent⟩
    · intro n
      have := h.le n
      rw [e] at this
      by_cases en : n = k
      · subst en
        simp [World.setGen, upd_same, ahead] at this ⊢
        omega
      · simp only [World.setGen, upd_other _ _ en]
        simp only [ahead, if_neg (Ne.symm en)] at this
        exact Nat.le_trans this (Nat.le_add_right _ _)
    · intro n r' m h
      cases r <;> cases h
    · intro n a b
      by_cases en : n = k
      · subst en; simp only [World.setGen, upd_same]; exact h.tick n a b
      · simp only [World.setGen, upd_other _ _ en]; exact h.tick n a b
  | _ =>
    simp only [World.step] at hs
    (repeat' split at hs) <;> cases hs <;> exact h.congr rfl rfl h.sent

theorem ReachesApart.apart (h : ReachesApart c sub w) : Apart w := by
  cases h with
  | start => intro n hn; exact absurd rfl hn
  | step _ _ _ h => exact h

theorem ReachesApart.matched (h : ReachesApart c sub w) : Matched w := by
  induction h with
  | start => constructor <;> simp [World.start]
  | step h1 _ h3 h4 ih => exact ih.step (ReachesApart.apart h1) h4 h3

theorem ReachesApart.reaches (h : ReachesApart c sub w) : Reaches c sub w := by
  induction h with
  | start => exact ⟨[], rfl⟩
  | @step w w' l _ h2 h3 _ ih => exact Reaches.run ih (ls := [l]) (by simp [World.run, h2, h3])

end World
end Gosstrak
