import Verif.Spec.Fair
import Verif.Proofs.Monitored

/-! Lemmas for C109. -/
namespace Gosstrak
open World
variable {F : Type} {env : FcEnv} {c : Config F} {tr : Translator} {sub : Subs} {E : Engines} {flag : Option Int}
  {w w' : World F} {k : Label}

/-! ### kinds -/

theorem kind_plain {m : ProgLabel} {k : Label} (h1 : ∀ o, k ≠ .search o) (h2 : ∀ t, k ≠ .track t)
    (h : m.kind = .factory k) : m = .factory k := by
  cases m with
  | fc => cases h
  | panic => cases h
  | factory k' =>
    cases k' with
    | search o => cases h; exact absurd rfl (h1 _)
    | track t => cases h; exact absurd rfl (h2 _)
    | engineSearch b => cases h
    | _ => exact h

theorem kind_fc {m : ProgLabel} {k : FcLabel} (h : m.kind = .fc k) : m = .fc k := by
  cases m with
  | fc => exact h
  | panic => cases h
  | factory k' => cases k' <;> cases h

/-! ### the goroutines of the factory, one at a time -/

theorem listener_keep (hs : World.step c w k = some w') (hl : w.listener ≠ .idle) (hk : k ≠ .listener) :
    w'.listener = w.listener := by
  cases k with
  | listener => exact absurd rfl hk
  | selector =>
    simp only [World.step, World.selectorStep] at hs
    split at hs
    case h_7 m e =>
      obtain ⟨w1, h1, rfl⟩ := Option.map_eq_some_iff.mp hs
      rw [push_eq h1]
    all_goals (repeat' split at hs) <;> cases hs <;> rfl
  | manageAdd p u => rw [push_eq (m := .add p u) hs]
  | manageDelete p u => rw [push_eq (m := .delete p u) hs]
  | recvGenerated n =>
    simp only [World.step] at hs
    split at hs
    · rename_i e _; exact absurd e hl
    · cases hs
  | recvTraffic n =>
    simp only [World.step] at hs
    split at hs
    · rename_i e _; exact absurd e hl
    · cases hs
  | recvStatus n =>
    simp only [World.step] at hs
    split at hs
    · rename_i e _; exact absurd e hl
    · cases hs
  | recvMain =>
    simp only [World.step] at hs
    split at hs
    · rename_i e _; exact absurd e hl
    · cases hs
  | _ =>
    simp only [World.step] at hs
    (repeat' split at hs) <;> cases hs <;> rfl

theorem listener_can (hl : w.listener ≠ .idle) (hq : w.queue.length < c.capacity) :
    ∃ w', World.step c w .listener = some w' := by
  simp only [World.step, World.listenerStep]
  split
  · rename_i e; exact absurd e hl
  · split
    · exact ⟨_, rfl⟩
    · split <;> exact ⟨_, rfl⟩
  · split <;> exact ⟨_, rfl⟩
  · exact ⟨_, rfl⟩
  · exact ⟨_, rfl⟩
  · exact ⟨_, rfl⟩
  · unfold World.push
    rw [if_pos hq]
    exact ⟨_, rfl⟩

/-- the move that a monitor makes next -/
def Monitor.move (n : Str) : Monitor F → Label
  | .sendTraffic .. => .recvTraffic n
  | .compute => .genCompute n
  | .sendStatus _ => .recvStatus n
  | .reset => .genReset n
  | .waiting => .genReset n

theorem monitor_moved {n m : Str} {g : Gen F} {x : Monitor F} (hx : (w.gens n).monitor = x)
    (h : m = n → g.monitor = x ∧ k ≠ x.move n ∨ Monitor.left g.monitor < Monitor.left x)
    (hk : m ≠ n → k ≠ x.move n) :
    (upd w.gens m g n).monitor = x ∧ k ≠ x.move n ∨ Monitor.left (upd w.gens m g n).monitor < Monitor.left x := by
  by_cases e : m = n
  · subst e; rw [upd_same]; exact h rfl
  · rw [upd_other _ _ (Ne.symm e)]; exact .inl ⟨hx, hk e⟩

theorem monitor_step {n : Str} {x : Monitor F} (hs : World.step c w k = some w') (hx : (w.gens n).monitor = x)
    (hn : x ≠ .waiting) :
    (w'.gens n).monitor = x ∧ k ≠ x.move n ∨ Monitor.left (w'.gens n).monitor < Monitor.left x := by
  cases k with
  | listener =>
    have hk : Label.listener ≠ x.move n := by cases x <;> nofun
    simp only [World.step, World.listenerStep] at hs
    split at hs
    case h_7 m e =>
      obtain ⟨w1, h1, rfl⟩ := Option.map_eq_some_iff.mp hs
      rw [push_eq h1]; exact .inl ⟨hx, hk⟩
    all_goals (repeat' split at hs) <;> cases hs <;> exact .inl ⟨hx, hk⟩
  | selector =>
    have hk : Label.selector ≠ x.move n := by cases x <;> nofun
    simp only [World.step, World.selectorStep] at hs
    split at hs
    case h_7 m e =>
      obtain ⟨w1, h1, rfl⟩ := Option.map_eq_some_iff.mp hs
      rw [push_eq h1]; exact .inl ⟨hx, hk⟩
    all_goals (repeat' split at hs) <;> cases hs <;> exact .inl ⟨hx, hk⟩
  | manageAdd p u => rw [push_eq (m := .add p u) hs]; exact .inl ⟨hx, by cases x <;> nofun⟩
  | manageDelete p u => rw [push_eq (m := .delete p u) hs]; exact .inl ⟨hx, by cases x <;> nofun⟩
  | genTick m =>
    simp only [World.step] at hs
    split at hs
    · rename_i e
      split at hs <;> cases hs
      refine monitor_moved hx (fun e' => ?_) fun _ => by cases x <;> nofun
      subst e'; rw [hx] at e; exact absurd e hn
    · cases hs
  | genCompute m =>
    simp only [World.step] at hs
    split at hs
    · rename_i e
      split at hs <;> cases hs <;>
        refine monitor_moved hx (fun e' => ?_) fun e' => by cases x <;> simp [Monitor.move, e']
      · subst e'; rw [hx] at e; subst e; exact .inr (by simp [Monitor.left])
      · subst e'; rw [hx] at e; subst e; exact .inr (by simp [Monitor.left])
    · cases hs
  | genReset m =>
    simp only [World.step] at hs
    split at hs
    · rename_i e
      cases hs
      refine monitor_moved hx (fun e' => ?_) fun e' => by cases x <;> simp [Monitor.move, e']
      subst e'; rw [hx] at e; subst e; exact .inr (by simp [Monitor.left])
    · cases hs
  | recvTraffic m =>
    simp only [World.step] at hs
    split at hs
    · rename_i e
      cases hs
      refine monitor_moved hx (fun e' => ?_) fun e' => by cases x <;> simp [Monitor.move, e']
      subst e'; rw [hx] at e; subst e; exact .inr (by simp [Monitor.left])
    · cases hs
  | recvStatus m =>
    simp only [World.step] at hs
    split at hs
    · rename_i e
      cases hs
      refine monitor_moved hx (fun e' => ?_) fun e' => by cases x <;> simp [Monitor.move, e']
      subst e'; rw [hx] at e; subst e; exact .inr (by simp [Monitor.left])
    · cases hs
  | _ =>
    simp only [World.step] at hs
    (repeat' split at hs) <;> cases hs <;>
      first
        | exact .inl ⟨hx, by cases x <;> nofun⟩
        | exact monitor_moved hx (fun e => by subst e; exact .inl ⟨hx, by cases x <;> nofun⟩)
            fun _ => by cases x <;> nofun

/-- the kind of the move that the searching goroutine makes next -/
def Searcher.move : Searcher → ProgLabel
  | .range _ => .factory .searchNext
  | .readMatched .. => .factory .readMatched
  | .writeMatched .. => .factory .writeMatched
  | .track .. => .factory (.track 0)
  | _ => .panic

theorem searcher_step {x : Searcher} (hs : World.step c w k = some w') (hc : w'.crashed = false)
    (hx : w.searcher = x) (hn : x ≠ .idle) :
    w'.searcher = x ∧ (ProgLabel.factory k).kind ≠ x.move ∨ Searcher.left w'.searcher < Searcher.left x := by
  cases k with
  | listener =>
    have hk : (ProgLabel.factory .listener).kind ≠ x.move := by cases x <;> nofun
    simp only [World.step, World.listenerStep] at hs
    split at hs
    case h_7 m e =>
      obtain ⟨w1, h1, rfl⟩ := Option.map_eq_some_iff.mp hs
      rw [push_eq h1]; exact .inl ⟨hx, hk⟩
    all_goals (repeat' split at hs) <;> cases hs <;> exact .inl ⟨hx, hk⟩
  | selector =>
    have hk : (ProgLabel.factory .selector).kind ≠ x.move := by cases x <;> nofun
    simp only [World.step, World.selectorStep] at hs
    split at hs
    case h_7 m e =>
      obtain ⟨w1, h1, rfl⟩ := Option.map_eq_some_iff.mp hs
      rw [push_eq h1]; exact .inl ⟨hx, hk⟩
    all_goals (repeat' split at hs) <;> cases hs <;> exact .inl ⟨hx, hk⟩
  | manageAdd p u => rw [push_eq (m := .add p u) hs]; exact .inl ⟨hx, by cases x <;> nofun⟩
  | manageDelete p u => rw [push_eq (m := .delete p u) hs]; exact .inl ⟨hx, by cases x <;> nofun⟩
  | search o =>
    simp only [World.step] at hs
    split at hs
    · rename_i e; rw [hx] at e; exact absurd e hn
    · cases hs
  | searchNext =>
    simp only [World.step] at hs
    split at hs
    · rename_i n rest e
      rw [hx] at e; subst e
      split at hs <;> cases hs <;> refine .inr ?_ <;> simp [Searcher.left, restLeft]; omega
    · rename_i e
      rw [hx] at e; subst e
      split at hs <;> cases hs
      · exact .inr (by simp [Searcher.left, restLeft])
      · cases hc
    · cases hs
  | engineSearch b =>
    simp only [World.step] at hs
    split at hs
    · rename_i n rest e
      rw [hx] at e; subst e
      split at hs
      · cases hs; cases hc
      · split at hs <;> cases hs <;> refine .inr ?_ <;> simp [Searcher.left]
    · cases hs
  | readMatched =>
    simp only [World.step] at hs
    split at hs
    · rename_i n rest e
      rw [hx] at e; subst e
      cases hs
      exact .inr (by simp [Searcher.left])
    · cases hs
  | writeMatched =>
    simp only [World.step] at hs
    split at hs
    · rename_i n rest m e
      rw [hx] at e; subst e
      cases hs
      exact .inr (by simp [Searcher.left])
    · cases hs
  | track t =>
    simp only [World.step] at hs
    split at hs
    · rename_i n rest e
      rw [hx] at e; subst e
      split at hs
      · cases hs
        refine .inr ?_
        cases rest <;> simp [Searcher.left, restLeft, resume]
      · cases hs
    · cases hs
  | _ =>
    simp only [World.step] at hs
    (repeat' split at hs) <;> cases hs <;> exact .inl ⟨hx, by cases x <;> nofun⟩

/-- the move with which an engine comes nearer to being announced -/
def Builder.move (n : Str) : Builder → Label
  | .off => .init n
  | .building _ => .build n
  | .deploying => .deploy n
  | .announcing => .recvGenerated n
  | .done => .recvMain

def Builder.rank : Builder → Nat
  | .off => 4
  | .building _ => 3
  | .deploying => 2
  | .announcing => 1
  | .done => 0

theorem builder_same {n m : Str} {g : Gen F} {x : Builder} (hx : (w.gens n).builder = x)
    (h : m = n → g.builder = x ∧ k ≠ x.move n ∨ Builder.rank g.builder < Builder.rank x)
    (hk : m ≠ n → k ≠ x.move n) :
    (upd w.gens m g n).builder = x ∧ k ≠ x.move n ∨ Builder.rank (upd w.gens m g n).builder < Builder.rank x := by
  by_cases e : m = n
  · subst e; rw [upd_same]; exact h rfl
  · rw [upd_other _ _ (Ne.symm e)]; exact .inl ⟨hx, hk e⟩

theorem builder_step {n : Str} {x : Builder} (hi : Inv c sub w) (hs : World.step c w k = some w')
    (hx : (w.gens n).builder = x) :
    (w'.gens n).builder = x ∧ (x ≠ .done → k ≠ x.move n) ∨ Builder.rank (w'.gens n).builder < Builder.rank x := by
  suffices h : k ≠ .recvMain → (w'.gens n).builder = x ∧ k ≠ x.move n ∨
      Builder.rank (w'.gens n).builder < Builder.rank x by
    by_cases e : k = .recvMain
    · subst e
      simp only [World.step] at hs
      (repeat' split at hs) <;> cases hs <;> exact .inl ⟨hx, fun h => by cases x <;> first | exact absurd rfl h | nofun⟩
    · exact (h e).imp (fun h => ⟨h.1, fun _ => h.2⟩) id
  intro hrm
  cases k with
  | recvMain => exact absurd rfl hrm
  | listener =>
    have hk : Label.listener ≠ x.move n := by cases x <;> nofun
    simp only [World.step, World.listenerStep] at hs
    split at hs
    case h_7 m e =>
      obtain ⟨w1, h1, rfl⟩ := Option.map_eq_some_iff.mp hs
      rw [push_eq h1]; exact .inl ⟨hx, hk⟩
    all_goals (repeat' split at hs) <;> cases hs <;> exact .inl ⟨hx, hk⟩
  | selector =>
    have hk : Label.selector ≠ x.move n := by cases x <;> nofun
    simp only [World.step, World.selectorStep] at hs
    split at hs
    case h_7 m e =>
      obtain ⟨w1, h1, rfl⟩ := Option.map_eq_some_iff.mp hs
      rw [push_eq h1]; exact .inl ⟨hx, hk⟩
    all_goals (repeat' split at hs) <;> cases hs <;> exact .inl ⟨hx, hk⟩
  | manageAdd p u => rw [push_eq (m := .add p u) hs]; exact .inl ⟨hx, by cases x <;> nofun⟩
  | manageDelete p u => rw [push_eq (m := .delete p u) hs]; exact .inl ⟨hx, by cases x <;> nofun⟩
  | init m =>
    simp only [World.step] at hs
    split at hs <;> cases hs
    rename_i e
    refine builder_same hx (fun e' => ?_) fun e' => by cases x <;> simp [Builder.move, e']
    subst e'
    have := (hi.gens m).unavailable e.2
    rw [hx] at this; subst this; exact .inr (by simp [Builder.rank])
  | build m =>
    simp only [World.step] at hs
    split at hs <;> cases hs
    rename_i e
    refine builder_same hx (fun e' => ?_) fun e' => by cases x <;> simp [Builder.move, e']
    subst e'; rw [hx] at e; subst e; exact .inr (by simp [Builder.rank])
  | deploy m =>
    simp only [World.step] at hs
    split at hs <;> cases hs
    rename_i e
    refine builder_same hx (fun e' => ?_) fun e' => by cases x <;> simp [Builder.move, e']
    subst e'; have e := e.1; rw [hx] at e; subst e; exact .inr (by simp [Builder.rank])
  | recvGenerated m =>
    simp only [World.step] at hs
    split at hs <;> cases hs
    rename_i e
    refine builder_same hx (fun e' => ?_) fun e' => by cases x <;> simp [Builder.move, e']
    subst e'; rw [hx] at e; subst e; exact .inr (by simp [Builder.rank])
  | _ =>
    simp only [World.step] at hs
    (repeat' split at hs) <;> cases hs <;>
      first
        | exact .inl ⟨hx, by cases x <;> nofun⟩
        | exact builder_same hx (fun e => by subst e; exact .inl ⟨hx, by cases x <;> nofun⟩)
            fun _ => by cases x <;> nofun

theorem announced_reaches (hf : c.floats.Lawful) (hn : [] ∉ c.names) (h : Reaches c sub w) : Announced w := by
  obtain ⟨ls, hrun⟩ := h
  exact (run_induct (P := fun w => Inv c sub w ∧ Announced w)
    (fun _ _ _ h1 h2 => ⟨h1.1.step hf hn h2, h1.2.step hn h1.1 h2⟩) ls _ _
    ⟨Inv.start hf, fun n h => by cases h⟩ hrun).2

theorem active_step (hn : [] ∉ c.names) (hi : Inv c sub w) (hs : World.step c w k = some w')
    (h : w.isActive = true) : w'.isActive = true := by
  simp only [isActive, ne_eq, decide_not, Bool.not_eq_true', decide_eq_false_iff_not] at h ⊢
  rcases current_eq hs with e | ⟨-, e⟩ | ⟨-, e⟩
  · rw [e]; exact h
  · have := hi.listener
    rw [e] at this
    exact hi.nonempty hn this
  · have := hi.selector
    rw [e] at this
    exact this.1

theorem queue_bounded (h : Reaches c sub w) : w.queue.length ≤ c.capacity := by
  obtain ⟨ls, hrun⟩ := h
  exact run_induct (P := fun w => w.queue.length ≤ c.capacity) (fun _ _ _ h1 h2 => queue_step h1 h2) ls _ _
    (Nat.zero_le _) hrun

/-- what the factory can do, the program can -/
theorem prog_can (hf : c.floats.Lawful) (hn : [] ∉ c.names)
    (hnames : ∀ n ∈ c.names, ∃ m : EngineName, m.text = n) {E0 : Engines} {ls : List ProgLabel} {s : Prog F}
    (h : ProgRun env c tr (progStart c sub E flag) ls s) (he : s.fc.ended = none) (hm : Mid tr E0 s)
    (ho : k.Own) (hw : World.step c s.world k = some w) : s.Can env c tr (.factory k) := by
  have hre := prog_reaches hf hn h
  by_cases hA : k.Aside s.world
  · exact ⟨_, _, rfl, .aside he hA hw⟩
  cases k with
  | search order => simp [Label.Own, Label.internal] at ho
  | searchNext =>
    have hs : s.world.searcher = .range [] := Classical.not_not.mp hA
    exact ⟨_, _, rfl, .choose he hs hw⟩
  | track t =>
    obtain ⟨n, hs⟩ := Classical.not_forall.mp hA
    have hs : s.world.searcher = .track n none := Classical.not_not.mp hs
    have hm' := hm
    unfold Mid at hm'
    rw [hs] at hm'
    obtain ⟨b, e, t, r, a1, -, m, q, E1, -, -, -, a2⟩ := hm'
    exact ⟨_, _, rfl, .ret he a1 hs a2 hw⟩
  | engineSearch found =>
    cases hs : s.world.searcher with
    | call n rest =>
      obtain ⟨m, rfl⟩ := hnames n (C53_searched hf hn hre (by rw [hs]; rfl)).1
      obtain ⟨b, e, t, r, a1⟩ := hm.tag (by rw [hs]; simp)
      obtain ⟨res, hq⟩ := engineSearch_total tr s.fc.factory e m
      cases res with
      | none => exact ⟨.panic, _, rfl, .panic he a1 hs hq⟩
      | some p =>
        obtain ⟨w', hw'⟩ : ∃ w', World.step c s.world (.engineSearch (decide (p.1.reportURIs ≠ []))) = some w' := by
          simp only [World.step, hs]
          split
          · exact ⟨_, rfl⟩
          · split <;> exact ⟨_, rfl⟩
        exact ⟨.factory (.engineSearch (decide (p.1.reportURIs ≠ []))), _, rfl, .engine he a1 hs hq hw'⟩
    | _ => simp [World.step, hs] at hw
  | _ => exact absurd trivial hA

end Gosstrak
