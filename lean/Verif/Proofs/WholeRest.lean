import Verif.Proofs.Whole

namespace Gosstrak

open World

variable {F : Type} {env : FcEnv} {c : Config F} {tr : Translator} {sub : Subs} {w w' : World F} {l : Label}

/-- an engine whose announcement has been received is, or makes that there is, a selected engine -/
def Announced (w : World F) : Prop :=
  ∀ n, (w.gens n).builder = .done →
    w.current ≠ [] ∨ (∃ m, w.listener = .generated m) ∨ ∃ m, w.listener = .setCurrent m

theorem Announced.same (h : Announced w) (hcur : w'.current = w.current)
    (hb : ∀ n, (w'.gens n).builder = .done → (w.gens n).builder = .done)
    (hl : w'.listener = w.listener ∨ w.listener = .idle) : Announced w' := by
  intro n hn
  rw [hcur]
  rcases hl with e | e
  · rw [e]; exact h n (hb n hn)
  · rcases h n (hb n hn) with h | ⟨m, h⟩ | ⟨m, h⟩
    · exact Or.inl h
    · rw [e] at h; cases h
    · rw [e] at h; cases h

theorem Announced.step (hn : [] ∉ c.names) (hi : Inv c sub w) (h : Announced w)
    (hs : World.step c w l = some w') : Announced w' := by
  cases l with
  | listener =>
    have hil := hi.listener
    simp only [World.step, World.listenerStep] at hs
    have rest : ∀ w', w'.current = w.current → w'.gens = w.gens → (∀ m, w.listener ≠ .generated m) →
        (∀ m, w.listener ≠ .setCurrent m) → Announced w' := by
      intro w' h1 h2 h3 h4 n hd
      rw [h2] at hd
      rw [h1]
      rcases h n hd with h | ⟨m, h⟩ | ⟨m, h⟩
      · exact Or.inl h
      · exact absurd h (h3 m)
      · exact absurd h (h4 m)
    split at hs
    case h_1 => cases hs
    case h_2 n e =>
      rw [e] at hil
      have hr := ((hi.gens n).ready hil).1
      split at hs
      · rename_i e'; rw [hr] at e'; cases e'
      split at hs <;> cases hs
      · exact fun _ _ => Or.inr (Or.inr ⟨n, rfl⟩)
      · rename_i e2; exact fun _ _ => Or.inl e2
    case h_3 n e =>
      split at hs <;> cases hs <;> exact rest _ rfl rfl (by simp [e]) (by simp [e])
    case h_4 n e =>
      rw [e] at hil
      cases hs
      exact fun _ _ => Or.inl (hi.nonempty hn hil)
    case h_5 e => cases hs; exact rest _ rfl rfl (by simp [e]) (by simp [e])
    case h_6 n v e => cases hs; exact rest _ rfl rfl (by simp [e]) (by simp [e])
    case h_7 m e =>
      obtain ⟨w1, h5, rfl⟩ := Option.map_eq_some_iff.mp hs
      rw [push_eq h5]
      exact rest _ rfl rfl (by simp [e]) (by simp [e])
  | selector =>
    have his := hi.selector
    simp only [World.step, World.selectorStep] at hs
    split at hs
    case h_5 best e =>
      cases hs
      rw [e] at his
      exact fun _ _ => Or.inl his.1
    case h_7 m e =>
      obtain ⟨w1, h5, rfl⟩ := Option.map_eq_some_iff.mp hs
      rw [push_eq h5]
      exact h
    all_goals (repeat' split at hs) <;> cases hs <;> exact h
  | manageAdd p u => rw [push_eq (m := .add p u) hs]; exact h
  | manageDelete p u => rw [push_eq (m := .delete p u) hs]; exact h
  | recvGenerated n =>
    simp only [World.step] at hs
    split at hs <;> cases hs
    exact fun _ _ => Or.inr (Or.inl ⟨n, rfl⟩)
  | recvTraffic n =>
    simp only [World.step] at hs
    split at hs <;> cases hs
    rename_i e1 e2
    exact h.same rfl (builder_upd (by exact id)) (Or.inr e1)
  | recvStatus n =>
    simp only [World.step] at hs
    split at hs <;> cases hs
    rename_i e1 e2
    exact h.same rfl (builder_upd (by exact id)) (Or.inr e1)
  | recvMain =>
    simp only [World.step] at hs
    split at hs <;> try cases hs
    rename_i e1 e2
    split at hs <;> cases hs <;> exact h.same rfl (fun _ h => h) (Or.inr e1)
  | init n =>
    simp only [World.step] at hs
    split at hs <;> cases hs
    exact h.same rfl (builder_upd (fun h => nomatch h)) (Or.inl rfl)
  | build n =>
    simp only [World.step] at hs
    split at hs <;> cases hs
    exact h.same rfl (builder_upd (fun h => nomatch h)) (Or.inl rfl)
  | deploy n =>
    simp only [World.step] at hs
    split at hs <;> cases hs
    exact h.same rfl (builder_upd (fun h => nomatch h)) (Or.inl rfl)
  | _ =>
    simp only [World.step] at hs
    (repeat' split at hs) <;> cases hs <;>
      first
        | exact h
        | exact h.same rfl (builder_upd (by exact id)) (Or.inl rfl)

theorem active_at_rest (hf : c.floats.Lawful) (hn : [] ∉ c.names) (hne : c.names ≠ []) (h : Reaches c sub w)
    (hr : World.AtRest c w) : w.isActive = true := by
  obtain ⟨ls, hrun⟩ := h
  have := run_induct (P := fun w => Inv c sub w ∧ Announced w)
    (fun _ _ _ h1 h2 => ⟨h1.1.step hf hn h2, h1.2.step hn h1.1 h2⟩) ls _ _
    ⟨Inv.start hf, fun n h => by cases h⟩ hrun
  obtain ⟨n, hm⟩ := List.exists_mem_of_ne_nil _ hne
  rcases this.2 n (hr.built n hm) with h | ⟨m, h⟩ | ⟨m, h⟩
  · simpa [isActive] using h
  · rw [hr.listener] at h; cases h
  · rw [hr.listener] at h; cases h

theorem ready_upd {n k : Str} {g : Gen F} (h : (w.gens n).fsm = .ready)
    (hg : (w.gens k).fsm = .ready → g.fsm = .ready) : (upd w.gens k g n).fsm = .ready := by
  by_cases e : n = k
  · subst e; rw [upd_same]; exact hg h
  · rwa [upd_other _ _ e]

/-- an engine that is ready remains so -/
theorem ready_step {n : Str} (h : (w.gens n).fsm = .ready) (hs : World.step c w l = some w') :
    (w'.gens n).fsm = .ready := by
  cases l with
  | listener =>
    simp only [World.step, World.listenerStep] at hs
    split at hs
    case h_7 m e =>
      obtain ⟨w1, h5, rfl⟩ := Option.map_eq_some_iff.mp hs
      rw [push_eq h5]
      exact h
    all_goals (repeat' split at hs) <;> cases hs <;> exact h
  | selector =>
    simp only [World.step, World.selectorStep] at hs
    split at hs
    case h_7 m e =>
      obtain ⟨w1, h5, rfl⟩ := Option.map_eq_some_iff.mp hs
      rw [push_eq h5]
      exact h
    all_goals (repeat' split at hs) <;> cases hs <;> exact h
  | manageAdd p u => rw [push_eq (m := .add p u) hs]; exact h
  | manageDelete p u => rw [push_eq (m := .delete p u) hs]; exact h
  | init k =>
    simp only [World.step] at hs
    split at hs <;> cases hs
    rename_i e
    exact ready_upd h fun h' => by rw [e.2] at h'; cases h'
  | deploy k =>
    simp only [World.step] at hs
    split at hs <;> cases hs
    exact ready_upd h fun _ => rfl
  | _ =>
    simp only [World.step] at hs
    (repeat' split at hs) <;> cases hs <;>
      first
        | exact h
        | exact ready_upd h (by exact id)

/-- while a call of `Search` goes on there is a tag it is for -/
theorem Mid.tag {E0 : Engines} {s : Prog F} (h : Mid tr E0 s) (hs : s.world.searcher ≠ .idle) :
    ∃ b e t r, s.fc.listener = .searching b (e :: t) r := by
  unfold Mid at h
  split at h
  · rename_i e
    cases e' : s.world.searcher with
    | idle => exact absurd e' hs
    | range => rw [e'] at e; cases e
    | call n rest => rw [e'] at e; cases rest <;> cases e
    | readMatched n rest => rw [e'] at e; cases rest <;> cases e
    | writeMatched n rest m => rw [e'] at e; cases rest <;> cases e
    | track n rest => rw [e'] at e; cases rest <;> cases e
  all_goals
    obtain ⟨b, e, t, r, h1, -⟩ := h
    exact ⟨b, e, t, r, h1⟩

/-- at rest the program of `Model/FcRun.lean` is so as well, and the factory -/
theorem prog_rest (hf : c.floats.Lawful) (hn : [] ∉ c.names) (hne : c.names ≠ []) (hcap : 0 < c.capacity)
    (hnames : ∀ n ∈ c.names, ∃ m : EngineName, m.text = n) {E E0 : Engines} {flag : Option Int}
    {ls : List ProgLabel} {s : Prog F} (h : ProgRun env c tr (progStart c sub E flag) ls s)
    (hr : s.AtRest env c tr) (hmid : s.fc.ended = none → Mid tr E0 s) :
    (s.fc.ended = none → World.AtRest c s.world) ∧
    ∀ can, ({ s.fc with factory := E0 } : Fc Engines).AtRest env (enginesAnswer tr can) := by
  have hre := prog_reaches hf hn h
  have hc := C53_no_crash hf hn hre
  have key : s.fc.ended = none → World.AtRest c s.world := by
    intro he
    have hm := hmid he
    refine (C83_rest hf hn hcap hre).mp fun l ho => ?_
    by_cases hA : l.Aside s.world
    · exact Option.eq_none_iff_forall_ne_some.mpr fun w hw => hr (.factory l) _ (Or.inl ho) (.aside he hA hw)
    refine Option.eq_none_iff_forall_ne_some.mpr fun w hw => ?_
    cases l with
    | search order => simp [Label.Own, Label.internal] at ho
    | searchNext =>
      have hs : s.world.searcher = .range [] := Classical.not_not.mp hA
      exact hr (.factory .searchNext) _ (Or.inl ho) (.choose he hs hw)
    | track t =>
      obtain ⟨n, hs⟩ := Classical.not_forall.mp hA
      have hs : s.world.searcher = .track n none := Classical.not_not.mp hs
      have hm' := hm
      unfold Mid at hm'
      rw [hs] at hm'
      obtain ⟨b, e, t, r, a1, -, m, q, E1, -, -, -, a2⟩ := hm'
      exact hr (.factory (.track _)) _ (Or.inl ho) (.ret he a1 hs a2 hw)
    | engineSearch found =>
      cases hs : s.world.searcher with
      | call n rest =>
        obtain ⟨m, rfl⟩ := hnames n (C53_searched hf hn hre (by rw [hs]; rfl)).1
        obtain ⟨b, e, t, r, a1⟩ := hm.tag (by rw [hs]; simp)
        obtain ⟨res, hq⟩ := engineSearch_total tr s.fc.factory e m
        cases res with
        | none => exact hr .panic _ trivial (.panic he a1 hs hq)
        | some p =>
          obtain ⟨w', hw'⟩ : ∃ w', World.step c s.world (.engineSearch (decide (p.1.reportURIs ≠ []))) = some w' := by
            simp only [World.step, hs]
            split
            · exact ⟨_, rfl⟩
            · split <;> exact ⟨_, rfl⟩
          exact hr (.factory (.engineSearch (decide (p.1.reportURIs ≠ [])))) _ (Or.inl (Or.inl rfl))
            (.engine he a1 hs hq hw')
      | _ => simp [World.step, hs] at hw
    | _ => exact hA trivial
  refine ⟨key, fun can l t ho hs => ?_⟩
  have he : s.fc.ended = none := by cases hs <;> assumption
  have hrest := key he
  have ha := active_at_rest hf hn hne hre hrest
  have call : ∀ b e t r, s.fc.listener ≠ .searching b (e :: t) r := by
    intro b e t r hl
    refine hr (.factory (.search c.names)) _ (Or.inr ⟨_, rfl⟩) (ProgStep.call he hl
      (w := { s.world with searcher := .range c.names }) ?_)
    simp only [World.step, hrest.searcher]
    rw [if_pos ⟨ha, List.isPerm_iff.mpr (.refl _)⟩]
  have other : ∀ f, ¬ FcStep env noAnswer s.fc l f := fun f hf' => hr (.fc l) _ ho (.fc ha hf')
  cases hs with
  | arrive => exact ho
  | eof => exact ho
  | read he hm hr ha => exact other _ (.read he hm hr ha)
  | unknown he hm hr ha => exact other _ (.unknown he hm hr ha)
  | hand he hm hl => exact other _ (.hand he hm hl)
  | search he hl ha => exact call _ _ _ _ hl
  | crash he hl ha => exact call _ _ _ _ hl
  | finish he hl => exact other _ (.finish he hl)

end Gosstrak
