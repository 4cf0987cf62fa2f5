import Verif.Proofs.FactoryReports

namespace Gosstrak
namespace World
variable {F : Type} {c : Config F} {sub : Subs} {w w' : World F} {l : Label}

theorem run_append (ls ms : List Label) (w : World F) :
    run c w (ls ++ ms) = (run c w ls).bind fun w' => run c w' ms := by
  induction ls generalizing w with
  | nil => rfl
  | cons l ls ih =>
    simp only [List.cons_append, run]
    split
    · rfl
    · cases h : step c w l with
      | none => rfl
      | some w1 => exact ih w1

theorem run_snoc {ls : List Label} (h : run c w (ls ++ [l]) = some w') :
    ∃ w1, run c w ls = some w1 ∧ w1.crashed = false ∧ step c w1 l = some w' := by
  rw [run_append] at h
  obtain ⟨w1, h1, h2⟩ := Option.bind_eq_some_iff.mp h
  refine ⟨w1, h1, ?_⟩
  simp only [run] at h2
  split at h2
  · cases h2
  · rename_i hc
    obtain ⟨w2, h3, h4⟩ := Option.bind_eq_some_iff.mp h2
    cases h4
    exact ⟨by simpa using hc, h3⟩

theorem Reaches.run (h : Reaches c sub w) {ls : List Label} (hr : run c w ls = some w') :
    Reaches c sub w' := by
  obtain ⟨ms, hm⟩ := h
  exact ⟨ms ++ ls, by rw [run_append, hm]; exact hr⟩

/-- `b` with throughput `v` is the result of looking at the throughputs `seen` -/
def Best (c : Config F) (b : Str) (v : F) (seen : List (Str × F)) : Prop :=
  (b = [] ∧ v = c.floats.zero ∧ ∀ p ∈ seen, c.floats.lt c.floats.zero p.2 = false) ∨
  ((b, v) ∈ seen ∧ Pos c v ∧ ∀ p ∈ seen, c.floats.lt v p.2 = false)

theorem Best.snoc (hf : c.floats.Lawful) {b : Str} {v : F} {seen : List (Str × F)} (h : Best c b v seen)
    (k : Str) (u : F) :
    if c.floats.lt v u then Best c k u (seen ++ [(k, u)]) else Best c b v (seen ++ [(k, u)]) := by
  split
  · rename_i hlt
    refine Or.inr ⟨by simp, ?_, ?_⟩
    · rcases h with ⟨-, rfl, -⟩ | ⟨-, hp, -⟩
      · exact hlt
      · exact hf.trans _ _ _ hp hlt
    · intro p hp
      rcases List.mem_append.mp hp with hp | hp
      · rcases h with ⟨-, rfl, h1⟩ | ⟨-, -, h1⟩
        · refine Bool.eq_false_iff.mpr fun hn => ?_
          have := hf.trans _ _ _ hlt hn
          rw [h1 p hp] at this; cases this
        · refine Bool.eq_false_iff.mpr fun hn => ?_
          have := hf.trans _ _ _ hlt hn
          rw [h1 p hp] at this; cases this
      · cases List.mem_singleton.mp hp
        exact hf.irrefl _
  · rename_i hlt
    have hlt : c.floats.lt v u = false := by simpa using hlt
    rcases h with ⟨h1, rfl, h2⟩ | ⟨h1, h2, h3⟩
    · refine Or.inl ⟨h1, rfl, ?_⟩
      intro p hp
      rcases List.mem_append.mp hp with hp | hp
      · exact h2 p hp
      · cases List.mem_singleton.mp hp; exact hlt
    · refine Or.inr ⟨List.mem_append_left _ h1, h2, ?_⟩
      intro p hp
      rcases List.mem_append.mp hp with hp | hp
      · exact h3 p hp
      · cases List.mem_singleton.mp hp; exact hlt

/-- what holds of the selector while it runs after the state `w0`; `T` are the states since then -/
def RangeInv (c : Config F) (T : World F → Prop) : Selector F → Prop
  | .range rest b v seen => Best c b v seen ∧ (seen.map Prod.fst ++ rest).Perm c.names ∧
      ∀ p ∈ seen, ∃ u, T u ∧ u.perf p.1 = p.2
  | .decide b v seen => Best c b v seen ∧ (seen.map Prod.fst).Perm c.names ∧
      ∀ p ∈ seen, ∃ u, T u ∧ u.perf p.1 = p.2
  | .setCurrent b => b ≠ [] ∧ ∃ v seen, Best c b v seen ∧ (seen.map Prod.fst).Perm c.names ∧
      ∀ p ∈ seen, ∃ u, T u ∧ u.perf p.1 = p.2
  | _ => True

theorem RangeInv.mono {T S : World F → Prop} (hTS : ∀ u, T u → S u) {x : Selector F}
    (h : RangeInv c T x) : RangeInv c S x := by
  cases x <;> simp only [RangeInv] at *
  · exact ⟨h.1, h.2.1, fun p hp => (h.2.2 p hp).imp fun u hu => ⟨hTS u hu.1, hu.2⟩⟩
  · exact ⟨h.1, h.2.1, fun p hp => (h.2.2 p hp).imp fun u hu => ⟨hTS u hu.1, hu.2⟩⟩
  · obtain ⟨h0, v, seen, h1, h2, h3⟩ := h
    exact ⟨h0, v, seen, h1, h2, fun p hp => (h3 p hp).imp fun u hu => ⟨hTS u hu.1, hu.2⟩⟩

theorem selector_same (hs : step c w l = some w') (h1 : l ≠ .selector) (h2 : ∀ o, l ≠ .tick o) :
    w'.selector = w.selector := by
  cases l with
  | listener =>
    simp only [World.step, World.listenerStep] at hs
    split at hs
    case h_7 m e =>
      obtain ⟨w1, h1, rfl⟩ := Option.map_eq_some_iff.mp hs
      rw [push_eq h1]
    all_goals (repeat' split at hs) <;> cases hs <;> rfl
  | selector => exact absurd rfl h1
  | tick o => exact absurd rfl (h2 o)
  | manageAdd p u => rw [push_eq (m := .add p u) hs]
  | manageDelete p u => rw [push_eq (m := .delete p u) hs]
  | _ =>
    simp only [World.step] at hs
    (repeat' split at hs) <;> cases hs <;> rfl

theorem RangeInv.step (hf : c.floats.Lawful) {T : World F → Prop} (hT : T w)
    (h : RangeInv c T w.selector) (hl : ∀ o, l ≠ .tick o) (hs : step c w l = some w') :
    RangeInv c T w'.selector := by
  by_cases e : l = .selector
  · subst e
    simp only [World.step, World.selectorStep] at hs
    split at hs
    case h_1 => cases hs
    case h_2 e => rw [e] at h; cases hs; simpa [RangeInv] using h
    case h_3 k rest b v seen e =>
      rw [e] at h
      obtain ⟨a1, a2, a3⟩ := h
      have hb := a1.snoc hf k (w.perf k)
      have a3' : ∀ p ∈ seen ++ [(k, w.perf k)], ∃ u, T u ∧ u.perf p.1 = p.2 := by
        intro p hp
        rcases List.mem_append.mp hp with hp | hp
        · exact a3 p hp
        · cases List.mem_singleton.mp hp; exact ⟨w, hT, rfl⟩
      split at hs <;> cases hs
      · rename_i hlt
        rw [if_pos hlt] at hb
        exact ⟨hb, by simpa using a2, a3'⟩
      · rename_i hlt
        rw [if_neg hlt] at hb
        exact ⟨hb, by simpa using a2, a3'⟩
    case h_4 b v seen e =>
      rw [e] at h
      split at hs <;> cases hs
      · rename_i hb
        exact ⟨fun e => by simp [e] at hb, v, seen, h⟩
      · trivial
    case h_5 e => cases hs; trivial
    case h_6 e => cases hs; trivial
    case h_7 m e =>
      obtain ⟨w1, h1, rfl⟩ := Option.map_eq_some_iff.mp hs
      trivial
  · rw [selector_same hs e hl]
    exact h

/-- induction from the back -/
theorem RangeInv.run (hf : c.floats.Lawful) {w0 : World F} (h0 : RangeInv c (fun u => u = w0) w0.selector) :
    ∀ (n : Nat) (ls : List Label) (w : World F), ls.length = n → (∀ o, Label.tick o ∉ ls) →
      World.run c w0 ls = some w →
      RangeInv c (fun u => ∃ ms, ms <+: ls ∧ World.run c w0 ms = some u) w.selector := by
  intro n
  induction n with
  | zero =>
    intro ls w hn _ hr
    cases List.length_eq_zero_iff.mp hn
    cases hr
    exact h0.mono fun u hu => ⟨[], List.prefix_refl _, by rw [hu]; rfl⟩
  | succ n ih =>
    intro ls w hn ht hr
    rcases List.eq_nil_or_concat ls with rfl | ⟨ms, l, rfl⟩
    · cases hn
    rw [List.concat_eq_append] at *
    obtain ⟨w1, h1, -, h2⟩ := run_snoc hr
    have := ih ms w1 (by simpa using hn) (fun o ho => ht o (List.mem_append_left _ ho)) h1
    refine RangeInv.step hf ⟨ms, List.prefix_append _ _, h1⟩ (this.mono ?_) ?_ h2
    · rintro u ⟨q, hq, hu⟩; exact ⟨q, hq.trans (List.prefix_append _ _), hu⟩
    · rintro o rfl; exact ht o (by simp)

/-- the selector alone, over the remaining keys -/
theorem range_alone (hf : c.floats.Lawful) : ∀ (rest : List Str) (w : World F) (b : Str) (v : F)
    (seen : List (Str × F)), w.crashed = false → w.selector = .range rest b v seen → Best c b v seen →
    ∃ b' v', Best c b' v' (seen ++ rest.map fun k => (k, w.perf k)) ∧
      World.run c w (List.replicate (rest.length + 1) .selector) =
        some { w with selector := .decide b' v' (seen ++ rest.map fun k => (k, w.perf k)) } := by
  intro rest
  induction rest with
  | nil =>
    intro w b v seen hc hs hb
    refine ⟨b, v, by simpa using hb, ?_⟩
    simp [World.run, World.step, World.selectorStep, hc, hs]
  | cons k rest ih =>
    intro w b v seen hc hs hb
    have hb' := hb.snoc hf k (w.perf k)
    by_cases hlt : c.floats.lt v (w.perf k) = true
    · rw [if_pos hlt] at hb'
      obtain ⟨b', v', h1, h2⟩ := ih { w with selector := .range rest k (w.perf k) (seen ++ [(k, w.perf k)]) }
        k (w.perf k) (seen ++ [(k, w.perf k)]) hc rfl hb'
      refine ⟨b', v', by simpa using h1, ?_⟩
      rw [List.length_cons, List.replicate_succ, World.run, hc]
      simp only [World.step, World.selectorStep, hs, hlt, if_true]
      simpa [hc] using h2
    · rw [if_neg hlt] at hb'
      obtain ⟨b', v', h1, h2⟩ := ih { w with selector := .range rest b v (seen ++ [(k, w.perf k)]) }
        b v (seen ++ [(k, w.perf k)]) hc rfl hb'
      refine ⟨b', v', by simpa using h1, ?_⟩
      rw [List.length_cons, List.replicate_succ, World.run, hc]
      simp only [World.step, World.selectorStep, hs, hlt]
      simpa [hc] using h2

end World
end Gosstrak
