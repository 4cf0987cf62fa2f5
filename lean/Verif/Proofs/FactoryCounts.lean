import Verif.Proofs.FactoryReports

namespace Gosstrak
namespace World
variable {F : Type} {c : Config F} {sub : Subs} {w w' : World F} {l : Label}

structure CountInv (c : Config F) (n : Str) (sent : List (Msg F)) (g : Gen F) : Prop where
  events : g.events = g.batch.length
  time : g.totalTime = (g.batch.map (· / 1000)).sum
  all : g.all = g.batches.flatten ++ g.unreported
  traffic : ∀ e m, g.monitor = .sendTraffic e m → e = g.batch.length
  last : g.unreported = [] → g.monitor ≠ .waiting → (∀ e m, g.monitor ≠ .sendTraffic e m) →
    g.batches.getLast? = some g.batch
  status : ∀ v, g.monitor = .sendStatus v → v = throughput c.floats g.batch ∧ g.batch ≠ []
  counts : (sent.filterMap (Msg.trafficOf n)).map Prod.fst = g.batches.map List.length
  rates : sent.filterMap (Msg.throughputOf n) =
    (g.rated.filter (fun b => !b.isEmpty)).map (throughput c.floats)

theorem dropLast_concat_of_getLast? {α : Type} {l : List α} {a : α} (h : l.getLast? = some a) :
    l.dropLast ++ [a] = l := by
  obtain ⟨ys, rfl⟩ := List.getLast?_eq_some_iff.mp h
  simp

theorem CountInv.other {n : Str} {sent : List (Msg F)} {g : Gen F} (h : CountInv c n sent g) (m : Msg F)
    (h1 : m.trafficOf n = none) (h2 : m.throughputOf n = none) : CountInv c n (sent ++ [m]) g := by
  obtain ⟨a1, a2, a3, a4, a5, a6, a7, a8⟩ := h
  refine ⟨a1, a2, a3, a4, a5, a6, ?_, ?_⟩
  · simpa [h1] using a7
  · simpa [h2] using a8

theorem CountInv.step (hf : c.floats.Lawful) (h : ∀ n, CountInv c n w.sent (w.gens n))
    (hs : World.step c w l = some w') : ∀ n, CountInv c n w'.sent (w'.gens n) := by
  have lift : ∀ (k : Str) (g : Gen F), CountInv c k w.sent g →
      ∀ n, CountInv c n w.sent (upd w.gens k g n) := by
    intro k g hg n
    by_cases e : n = k
    · subst e; rw [upd_same]; exact hg
    · rw [upd_other _ _ e]; exact h n
  cases l with
  | listener =>
    simp only [World.step, World.listenerStep] at hs
    split at hs
    case h_7 m e =>
      obtain ⟨w1, h1, rfl⟩ := Option.map_eq_some_iff.mp hs
      rw [push_eq h1]; exact h
    all_goals (repeat' split at hs) <;> cases hs <;> exact h
  | selector =>
    simp only [World.step, World.selectorStep] at hs
    split at hs
    case h_7 m e =>
      obtain ⟨w1, h1, rfl⟩ := Option.map_eq_some_iff.mp hs
      rw [push_eq h1]; exact h
    all_goals (repeat' split at hs) <;> cases hs <;> exact h
  | manageAdd p u => rw [push_eq (m := .add p u) hs]; exact h
  | manageDelete p u => rw [push_eq (m := .delete p u) hs]; exact h
  | init k =>
    simp only [World.step] at hs
    split at hs <;> cases hs
    obtain ⟨a1, a2, a3, a4, a5, a6, a7, a8⟩ := h k
    exact lift k _ ⟨a1, a2, a3, a4, a5, a6, a7, a8⟩
  | build k =>
    simp only [World.step] at hs
    split at hs <;> cases hs
    obtain ⟨a1, a2, a3, a4, a5, a6, a7, a8⟩ := h k
    exact lift k _ ⟨a1, a2, a3, a4, a5, a6, a7, a8⟩
  | deploy k =>
    simp only [World.step] at hs
    split at hs <;> cases hs
    obtain ⟨a1, a2, a3, a4, a5, a6, a7, a8⟩ := h k
    exact lift k _ ⟨a1, a2, a3, a4, a5, a6, a7, a8⟩
  | recvGenerated k =>
    simp only [World.step] at hs
    split at hs <;> cases hs
    obtain ⟨a1, a2, a3, a4, a5, a6, a7, a8⟩ := h k
    exact lift k _ ⟨a1, a2, a3, a4, a5, a6, a7, a8⟩
  | writeMatched =>
    simp only [World.step] at hs
    split at hs <;> cases hs
    rename_i k rest m e
    obtain ⟨a1, a2, a3, a4, a5, a6, a7, a8⟩ := h k
    exact lift k _ ⟨a1, a2, a3, a4, a5, a6, a7, a8⟩
  | genTick k =>
    simp only [World.step] at hs
    split at hs <;> try cases hs
    rename_i em
    split at hs <;> cases hs
    obtain ⟨a1, a2, a3, a4, a5, a6, a7, a8⟩ := h k
    refine lift k _ ⟨a1, a2, ?_, ?_, ?_, fun v h => (nomatch h), a7, ?_⟩
    · simpa [Gen.unreported, em] using a3
    · rintro e m h; cases h; exact a1
    · intro _ _ h; exact absurd rfl (h _ _)
    · simpa [Gen.rated, em] using a8
  | genCompute k =>
    simp only [World.step] at hs
    split at hs <;> try cases hs
    rename_i em
    obtain ⟨a1, a2, a3, a4, a5, a6, a7, a8⟩ := h k
    have hl : (w.gens k).batches.getLast? = some (w.gens k).batch :=
      a5 (by simp [Gen.unreported, em]) (by simp [em]) (by simp [em])
    rw [show c.floats.div (w.gens k).events (w.gens k).totalTime = throughput c.floats (w.gens k).batch by
      rw [throughput, a1, a2]] at hs
    split at hs <;> cases hs
    · rename_i e
      refine lift k _ ⟨a1, a2, ?_, ?_, fun _ _ _ => hl, ?_, a7, ?_⟩
      · simpa [Gen.unreported, em] using a3
      · rintro e m h; cases h
      · rintro v h
        cases h
        refine ⟨rfl, ?_⟩
        intro e0
        rw [e0] at e
        exact absurd hf.div_nan (by simpa [throughput] using e.2)
      · simpa [Gen.rated, em] using a8
    · rename_i e
      have e0 : (w.gens k).batch = [] := by
        cases hb : (w.gens k).batch with
        | nil => rfl
        | cons x xs =>
          rw [hb] at e
          refine absurd ⟨Or.inr ?_, ?_⟩ e
          · exact hf.div_pos _ _ (by simp)
          · have := hf.div_num (x :: xs).length ((x :: xs).map (· / 1000)).sum (by simp)
            simpa [throughput] using this
      refine lift k _ ⟨a1, a2, ?_, ?_, fun _ _ _ => hl, fun v h => (nomatch h), a7, ?_⟩
      · simpa [Gen.unreported, em] using a3
      · rintro e m h; cases h
      · have hd := dropLast_concat_of_getLast? hl
        rw [e0] at hd
        simp only [Gen.rated, em] at a8 ⊢
        rw [← hd, a8]
        simp
  | genReset k =>
    simp only [World.step] at hs
    split at hs <;> cases hs
    rename_i em
    obtain ⟨a1, a2, a3, a4, a5, a6, a7, a8⟩ := h k
    refine lift k _ ⟨rfl, rfl, ?_, ?_, ?_, fun v h => (nomatch h), a7, ?_⟩
    · simpa [Gen.unreported, em] using a3
    · rintro e m h; cases h
    · intro _ h; exact absurd rfl h
    · simpa [Gen.rated, em] using a8
  | track t =>
    simp only [World.step] at hs
    split at hs <;> try cases hs
    rename_i k rest e
    split at hs <;> cases hs
    rename_i em
    obtain ⟨a1, a2, a3, a4, a5, a6, a7, a8⟩ := h k
    refine lift k _ ⟨?_, ?_, ?_, ?_, ?_, fun v h => (by rw [em] at h; cases h), a7, ?_⟩
    · simp [a1]
    · simp [a2]
    · simp [Gen.unreported, em] at a3 ⊢
      rw [a3]; simp
    · rintro e m h; rw [em] at h; cases h
    · intro _ h; exact absurd em h
    · simpa [Gen.rated, em] using a8
  | recvTraffic k =>
    simp only [World.step] at hs
    split at hs <;> cases hs
    rename_i a b e1 em
    intro n
    by_cases e : n = k
    · subst e
      simp only [World.setGen, upd_same]
      obtain ⟨a1, a2, a3, a4, a5, a6, a7, a8⟩ := h n
      refine ⟨a1, a2, ?_, ?_, fun _ _ _ => by simp, fun v h => (nomatch h), ?_, ?_⟩
      · simp [Gen.unreported, em] at a3 ⊢
        exact a3
      · rintro e m h; cases h
      · simp [Msg.trafficOf, a7, a4 _ _ em]
      · simpa [Gen.rated, em, Msg.throughputOf, List.filterMap_cons] using a8
    · simp only [World.setGen, upd_other _ _ e]
      exact (h n).other _ (by simp [Msg.trafficOf, Ne.symm e]) rfl
  | recvStatus k =>
    simp only [World.step] at hs
    split at hs <;> cases hs
    rename_i a e1 em
    intro n
    by_cases e : n = k
    · subst e
      simp only [World.setGen, upd_same]
      obtain ⟨a1, a2, a3, a4, a5, a6, a7, a8⟩ := h n
      have hl : (w.gens n).batches.getLast? = some (w.gens n).batch :=
        a5 (by simp [Gen.unreported, em]) (by simp [em]) (by simp [em])
      obtain ⟨hv, hb⟩ := a6 a em
      refine ⟨a1, a2, ?_, ?_, fun _ _ _ => hl, fun v h => (nomatch h), ?_, ?_⟩
      · simpa [Gen.unreported, em] using a3
      · rintro e m h; cases h
      · simpa [Msg.trafficOf, List.filterMap_cons] using a7
      · have hd := dropLast_concat_of_getLast? hl
        simp only [Gen.rated, em] at a8 ⊢
        rw [← hd, List.filterMap_append, a8]
        simp [Msg.throughputOf, hb, hv]
    · simp only [World.setGen, upd_other _ _ e]
      exact (h n).other _ rfl (by simp [Msg.throughputOf, Ne.symm e])
  | _ =>
    simp only [World.step] at hs
    (repeat' split at hs) <;> cases hs <;> exact h

theorem CountInv.reaches (hf : c.floats.Lawful) (h : Reaches c sub w) (n : Str) :
    CountInv c n w.sent (w.gens n) := by
  obtain ⟨ls, hr⟩ := h
  refine run_induct (P := fun w => ∀ n, CountInv c n w.sent (w.gens n))
    (fun _ _ _ h1 h2 => CountInv.step hf h1 h2) ls _ _ ?_ hr n
  intro n
  constructor <;> simp [World.start, Gen.unreported, Gen.rated]

end World
end Gosstrak
