import Verif.Proofs.FactoryProgress
import Mathlib.Algebra.BigOperators.Group.Finset.Basic
import Mathlib.Algebra.Order.BigOperators.Group.Finset

/-! A measure that every move of the program on its own decreases, except that the listener may take
    back a report it has forwarded. -/
namespace Gosstrak
namespace World
variable {F : Type} {c : Config F} {sub : Subs} {w w' : World F} {l : Label}

/-- what else is invariant of the generators -/
def Aux (c : Config F) (w : World F) : Prop :=
  ∀ n, ((w.gens n).monitor ≠ .waiting → n ∈ c.names) ∧ ((w.gens n).builder = .off → (w.gens n).fsm = .unavailable)

theorem Aux.setGen (h : Aux c w) (n : Str) {g : Gen F} (eg : w'.gens = upd w.gens n g)
    (h1 : g.monitor ≠ .waiting → n ∈ c.names) (h2 : g.builder = .off → g.fsm = .unavailable) : Aux c w' := by
  intro m
  rw [eg]
  by_cases e : m = n
  · subst e
    rw [upd_same]
    exact ⟨h1, h2⟩
  · rw [upd_other _ _ e]
    exact h m

theorem Aux.listenerStep (h : Aux c w) (hs : listenerStep c w = some w') : Aux c w' := by
  unfold World.listenerStep at hs
  split at hs
  · cases hs
  · split at hs
    · cases hs; exact h
    · split at hs <;> cases hs <;> exact h
  · split at hs <;> cases hs <;> exact h
  · cases hs; exact h
  · cases hs; exact h
  · cases hs; exact h
  · obtain ⟨u, hu, rfl⟩ := Option.map_eq_some_iff.mp hs
    unfold push at hu
    split at hu <;> cases hu
    exact h

theorem Aux.selectorStep (h : Aux c w) (hs : selectorStep c w = some w') : Aux c w' := by
  unfold World.selectorStep at hs
  split at hs
  · cases hs
  · cases hs; exact h
  · dsimp only at hs
    split at hs <;> cases hs <;> exact h
  · split at hs <;> cases hs <;> exact h
  · cases hs; exact h
  · cases hs; exact h
  · obtain ⟨u, hu, rfl⟩ := Option.map_eq_some_iff.mp hs
    unfold push at hu
    split at hu <;> cases hu
    exact h

theorem Aux.push (h : Aux c w) {m : Msg F} (hs : push c w m = some w') : Aux c w' := by
  unfold World.push at hs
  split at hs <;> cases hs
  exact h

theorem Aux.step (h : Aux c w) (hs : step c w l = some w') : Aux c w' := by
  cases l <;> simp only [World.step] at hs
  case init n =>
    split at hs <;> cases hs
    exact h.setGen n rfl (h n).1 (by simp)
  case build n =>
    split at hs <;> cases hs
    exact h.setGen n rfl (h n).1 (by simp)
  case deploy n =>
    split at hs <;> cases hs
    exact h.setGen n rfl (h n).1 (by simp)
  case genTick n =>
    split at hs
    · split at hs <;> cases hs
      rename_i e
      exact h.setGen n rfl (fun _ => e) (h n).2
    · cases hs
  case genCompute n =>
    split at hs
    · rename_i e
      have hm : n ∈ c.names := (h n).1 (by rw [e]; simp)
      split at hs <;> cases hs <;> exact h.setGen n rfl (fun _ => hm) (h n).2
    · cases hs
  case genReset n =>
    split at hs <;> cases hs
    exact h.setGen n rfl (by simp) (h n).2
  case recvGenerated n =>
    split at hs <;> cases hs
    exact h.setGen n rfl (h n).1 (by simp)
  case recvTraffic n =>
    split at hs <;> cases hs
    rename_i e
    exact h.setGen n rfl (fun _ => (h n).1 (by rw [e]; simp)) (h n).2
  case recvStatus n =>
    split at hs <;> cases hs
    rename_i e
    exact h.setGen n rfl (fun _ => (h n).1 (by rw [e]; simp)) (h n).2
  case recvMain =>
    split at hs
    · split at hs <;> cases hs <;> exact h
    · cases hs
  case listener => exact h.listenerStep hs
  case tick order =>
    split at hs
    · split at hs <;> cases hs
      exact h
    · cases hs
  case selector => exact h.selectorStep hs
  case search order =>
    split at hs
    · split at hs <;> cases hs
      exact h
    · cases hs
  case searchNext =>
    split at hs
    · split at hs <;> cases hs <;> exact h
    · split at hs <;> cases hs <;> exact h
    · cases hs
  case engineSearch b =>
    split at hs
    · split at hs
      · cases hs; exact h
      · split at hs <;> cases hs <;> exact h
    · cases hs
  case readMatched =>
    split at hs <;> cases hs
    exact h
  case writeMatched =>
    split at hs <;> cases hs
    rename_i n rest m _
    exact h.setGen n rfl (h n).1 (h n).2
  case track t =>
    split at hs
    · rename_i n rest _
      split at hs <;> cases hs
      rename_i e
      exact h.setGen n rfl (by simp [e]) (h n).2
    · cases hs
  case mainRecv =>
    split at hs <;> cases hs
    exact h
  case manageAdd => exact h.push hs
  case manageDelete => exact h.push hs

theorem Aux.reaches (h : Reaches c sub w) : Aux c w := by
  obtain ⟨ls, hr⟩ := h
  exact run_induct (fun _ _ _ h1 h2 => h1.step h2) ls _ _ (fun n => ⟨by simp [start], by simp [start]⟩) hr

/-! ### the measure -/

def Builder.left (fsm : Fsm) : Builder → Nat
  | .off => if fsm = .unavailable then 5 else 0
  | .building _ => 4
  | .deploying => 3
  | .announcing => 2
  | .done => 0

def Monitor.left : Monitor F → Nat
  | .waiting => 0
  | .reset => 1
  | .sendStatus _ => 3
  | .compute => 4
  | .sendTraffic .. => 6

def Gen.left (g : Gen F) : Nat := Builder.left g.fsm g.builder + Monitor.left g.monitor

def Listener.left : Listener F → Nat
  | .idle => 0
  | _ => 1

def Selector.left : Selector F → Nat
  | .idle => 0
  | .send _ => 2
  | .evalSelected => 3
  | .setCurrent _ => 4
  | .decide .. => 5
  | .range rest .. => 6 + rest.length

def restLeft : Option (List Str) → Nat
  | none => 0
  | some rest => 5 * (rest.length + 1)

def Searcher.left : Searcher → Nat
  | .idle => 0
  | .range rest => 5 * (rest.length + 1)
  | .call _ r => 4 + restLeft r
  | .readMatched _ r => 3 + restLeft r
  | .writeMatched _ r _ => 2 + restLeft r
  | .track _ r => 1 + restLeft r

def gensLeft (c : Config F) (w : World F) : Nat := ∑ n ∈ c.names.toFinset, Gen.left (w.gens n)

def left (c : Config F) (w : World F) : Nat :=
  gensLeft c w + Listener.left w.listener + Selector.left w.selector + Searcher.left w.searcher + w.queue.length

theorem gensLeft_setGen {n : Str} (hn : n ∈ c.names) {g : Gen F} (eg : w'.gens = upd w.gens n g) :
    gensLeft c w' + Gen.left (w.gens n) = gensLeft c w + Gen.left g := by
  have hm : n ∈ c.names.toFinset := List.mem_toFinset.mpr hn
  unfold gensLeft
  rw [eg, ← Finset.sum_erase_add _ _ hm,
    ← Finset.sum_erase_add _ (fun n => Gen.left (w.gens n)) hm]
  have : ∑ x ∈ c.names.toFinset.erase n, Gen.left (upd w.gens n g x) =
      ∑ x ∈ c.names.toFinset.erase n, Gen.left (w.gens x) := by
    refine Finset.sum_congr rfl fun x hx => ?_
    rw [upd_other _ _ (Finset.ne_of_mem_erase hx)]
  rw [this, upd_same]
  omega

theorem gensLeft_same (e : w'.gens = w.gens) : gensLeft c w' = gensLeft c w := by
  unfold gensLeft; rw [e]

/-- the moves of the listener that are not counted -/
def Label.rest : Label → Nat
  | .recvMain | .listener => 0
  | _ => 1

theorem left_push {m : Msg F} (h : push c w m = some w') : w' = { w with queue := w.queue ++ [m] } := by
  unfold push at h
  split at h <;> cases h
  rfl

theorem left_listener (hs : listenerStep c w = some w') : left c w' ≤ left c w := by
  unfold listenerStep at hs
  split at hs
  · cases hs
  · split at hs
    · cases hs; exact Nat.le_refl _
    · rename_i e _
      split at hs <;> cases hs <;> simp [left, gensLeft, Listener.left, e]
  · rename_i e
    split at hs <;> cases hs <;> simp [left, gensLeft, Listener.left, e]
  · rename_i e; cases hs; simp [left, gensLeft, Listener.left, e]
  · rename_i e; cases hs; simp [left, gensLeft, Listener.left, e]
  · rename_i e; cases hs; simp [left, gensLeft, Listener.left, e]
  · rename_i e
    obtain ⟨u, hu, rfl⟩ := Option.map_eq_some_iff.mp hs
    cases left_push hu
    simp [left, gensLeft, Listener.left, e]
    omega

theorem left_selector (hs : selectorStep c w = some w') : left c w' + 1 ≤ left c w := by
  unfold selectorStep at hs
  split at hs
  · cases hs
  · rename_i e; cases hs; simp [left, gensLeft, Selector.left, e]; omega
  · rename_i e
    dsimp only at hs
    split at hs <;> cases hs <;> simp [left, gensLeft, Selector.left, e] <;> omega
  · rename_i e
    split at hs <;> cases hs <;> simp [left, gensLeft, Selector.left, e] <;> omega
  · rename_i e; cases hs; simp [left, gensLeft, Selector.left, e]; omega
  · rename_i e; cases hs; simp [left, gensLeft, Selector.left, e]; omega
  · rename_i e
    obtain ⟨u, hu, rfl⟩ := Option.map_eq_some_iff.mp hs
    cases left_push hu
    simp [left, gensLeft, Selector.left, e]
    omega

theorem left_gen {n : Str} (hn : n ∈ c.names) {g : Gen F} (eg : w'.gens = upd w.gens n g) {k : Nat}
    (h : Gen.left g + Listener.left w'.listener + Selector.left w'.selector + Searcher.left w'.searcher +
        w'.queue.length + k ≤
      Gen.left (w.gens n) + Listener.left w.listener + Selector.left w.selector + Searcher.left w.searcher +
        w.queue.length) :
    left c w' + k ≤ left c w := by
  have := gensLeft_setGen hn eg
  unfold left
  omega

theorem left_step (hi : Inv c sub w) (ha : Aux c w) (hi' : w'.crashed = false) (ho : l.Own)
    (hs : step c w l = some w') : left c w' + Label.rest l ≤ left c w := by
  cases l <;> simp only [World.step] at hs <;> simp only [Label.rest]
  case init n =>
    split at hs <;> cases hs
    rename_i e
    refine left_gen e.1 rfl ?_
    simp [Gen.left, Builder.left, (hi.gens n).unavailable e.2, e.2, World.setGen]
    omega
  case build n =>
    split at hs <;> cases hs
    rename_i s e
    refine left_gen ((hi.gens n).building s e).2.2 rfl ?_
    simp [Gen.left, Builder.left, e, World.setGen]
    omega
  case deploy n =>
    split at hs <;> cases hs
    rename_i e
    refine left_gen ((hi.gens n).deploying e.1).2.2 rfl ?_
    simp [Gen.left, Builder.left, e.1, World.setGen]
    omega
  case genTick n => rcases ho with ho | ⟨m, ho⟩ <;> cases ho
  case genCompute n =>
    split at hs
    · rename_i e
      have hm : n ∈ c.names := (ha n).1 (by rw [e]; simp)
      split at hs <;> cases hs <;> refine left_gen hm rfl ?_ <;>
        simp [Gen.left, Monitor.left, e, World.setGen] <;> omega
    · cases hs
  case genReset n =>
    split at hs <;> cases hs
    rename_i e
    refine left_gen ((ha n).1 (by rw [e]; simp)) rfl ?_
    simp [Gen.left, Monitor.left, e, World.setGen]
    omega
  case recvGenerated n =>
    split at hs <;> cases hs
    rename_i e1 e2
    refine left_gen ((hi.gens n).ready ((hi.gens n).announcing e2)).2 rfl ?_
    simp [Gen.left, Builder.left, Listener.left, e1, e2, World.setGen]
    omega
  case recvTraffic n =>
    split at hs <;> cases hs
    rename_i e1 e2
    refine left_gen ((ha n).1 (by rw [e2]; simp)) rfl ?_
    simp [Gen.left, Monitor.left, Listener.left, e1, e2, World.setGen]
    omega
  case recvStatus n =>
    split at hs <;> cases hs
    rename_i e1 e2
    refine left_gen ((ha n).1 (by rw [e2]; simp)) rfl ?_
    simp [Gen.left, Monitor.left, Listener.left, e1, e2, World.setGen]
    omega
  case recvMain =>
    split at hs
    · rename_i e1 e2
      split at hs <;> cases hs <;> simp [left, gensLeft, Listener.left, e1, e2] <;> omega
    · cases hs
  case listener => simpa using left_listener hs
  case tick order => rcases ho with ho | ⟨m, ho⟩ <;> cases ho
  case selector => exact left_selector hs
  case search order => rcases ho with ho | ⟨m, ho⟩ <;> cases ho
  case searchNext =>
    split at hs
    · rename_i e
      split at hs <;> cases hs <;> simp [left, gensLeft, Searcher.left, restLeft, e] <;> omega
    · rename_i e
      split at hs <;> cases hs
      · simp [left, gensLeft, Searcher.left, restLeft, e]
        omega
      · cases hi'
    · cases hs
  case engineSearch b =>
    split at hs
    · rename_i e
      split at hs
      · cases hs; cases hi'
      · split at hs <;> cases hs <;> simp [left, gensLeft, Searcher.left, e] <;> omega
    · cases hs
  case readMatched =>
    split at hs <;> cases hs
    rename_i e
    simp [left, gensLeft, Searcher.left, e]
    omega
  case writeMatched =>
    split at hs <;> cases hs
    rename_i n rest m e
    have hr := hi.searcher
    rw [e] at hr
    refine left_gen ((hi.gens n).ready hr).2 rfl ?_
    simp [Gen.left, Searcher.left, e, World.setGen]
    omega
  case track t =>
    split at hs
    · rename_i n rest e
      split at hs <;> cases hs
      rename_i e2
      have hr := hi.searcher
      rw [e] at hr
      refine left_gen ((hi.gens n).ready hr).2 rfl ?_
      simp [Gen.left, Searcher.left, e, World.setGen]
      cases rest <;> simp only [resume, restLeft] <;> omega
    · cases hs
  case mainRecv =>
    split at hs <;> cases hs
    rename_i e
    simp [left, gensLeft, e]
    omega
  case manageAdd => rcases ho with ho | ⟨m, ho⟩ <;> cases ho
  case manageDelete => rcases ho with ho | ⟨m, ho⟩ <;> cases ho

theorem reaches_step (h : Reaches c sub w) (hc : w.crashed = false) (hs : step c w l = some w') :
    Reaches c sub w' := by
  obtain ⟨ls, hr⟩ := h
  exact ⟨ls ++ [l], by rw [run_append, hr]; simp [run, hc, hs]⟩

theorem left_run (hf : c.floats.Lawful) (hn : [] ∉ c.names) : ∀ (ls : List Label) (w w' : World F),
    Reaches c sub w → (∀ l ∈ ls, l.Own) → run c w ls = some w' →
    left c w' + (ls.map Label.rest).sum ≤ left c w := by
  intro ls
  induction ls with
  | nil => intro w w' _ _ hr; cases hr; simp
  | cons l ls ih =>
    intro w w' h ho hr
    have hi := Inv.reaches hf hn h
    simp only [run, hi.ok] at hr
    obtain ⟨w1, s1, s2⟩ := Option.bind_eq_some_iff.mp hr
    have h1 := left_step hi (Aux.reaches h) (hi.step hf hn s1).ok (ho l (by simp)) s1
    have h2 := ih w1 w' (reaches_step h hi.ok s1) (fun m hm => ho m (by simp [hm])) s2
    simp only [List.map_cons, List.sum_cons]
    omega

/-- when the program cannot move on its own, it is at rest -/
theorem rest_of_stuck (hf : c.floats.Lawful) (hn : [] ∉ c.names) (hcap : 0 < c.capacity) (h : Reaches c sub w)
    (hstuck : ∀ l : Label, l.Own → step c w l = none) : AtRest c w := by
  have hi := Inv.reaches hf hn h
  have ha := Aux.reaches h
  have hq : w.queue = [] := by
    cases e : w.queue with
    | nil => rfl
    | cons m q =>
      have := hstuck .mainRecv (Or.inl rfl)
      simp [World.step, e] at this
  have hpush : ∀ m, push c w m ≠ none := by
    intro m
    unfold push
    rw [hq]
    simp [hcap]
  have hl : w.listener = .idle := by
    have := hstuck .listener (Or.inl rfl)
    simp only [World.step, listenerStep] at this
    split at this
    · assumption
    · split at this
      · cases this
      · split at this <;> cases this
    · split at this <;> cases this
    · cases this
    · cases this
    · cases this
    · rw [Option.map_eq_none_iff] at this
      exact absurd this (hpush _)
  have hsel : w.selector = .idle := by
    have := hstuck .selector (Or.inl rfl)
    simp only [World.step, selectorStep] at this
    split at this
    · assumption
    · cases this
    · split at this <;> cases this
    · split at this <;> cases this
    · cases this
    · cases this
    · rw [Option.map_eq_none_iff] at this
      exact absurd this (hpush _)
  have hmon : ∀ n, (w.gens n).monitor = .waiting := by
    intro n
    cases e : (w.gens n).monitor with
    | waiting => rfl
    | sendTraffic a b =>
      have := hstuck (.recvTraffic n) (Or.inl rfl)
      simp [World.step, e, hl] at this
    | compute =>
      have := hstuck (.genCompute n) (Or.inl rfl)
      simp only [World.step, e] at this
      split at this <;> cases this
    | sendStatus v =>
      have := hstuck (.recvStatus n) (Or.inl rfl)
      simp [World.step, e, hl] at this
    | reset =>
      have := hstuck (.genReset n) (Or.inl rfl)
      simp [World.step, e] at this
  refine ⟨hl, hsel, ?_, hq, ?_, fun n _ => hmon n⟩
  · cases e : w.searcher with
    | idle => rfl
    | range rest =>
      have := hstuck .searchNext (Or.inl rfl)
      cases rest with
      | nil => simp only [World.step, e] at this; split at this <;> cases this
      | cons n rest => simp only [World.step, e] at this; split at this <;> cases this
    | call n r =>
      have := hstuck (.engineSearch true) (Or.inl rfl)
      simp only [World.step, e] at this
      split at this <;> cases this
    | readMatched n r =>
      have := hstuck .readMatched (Or.inl rfl)
      simp [World.step, e] at this
    | writeMatched n r m =>
      have := hstuck .writeMatched (Or.inl rfl)
      simp [World.step, e] at this
    | track n r =>
      have := hstuck (.track 0) (Or.inl rfl)
      simp [World.step, e, hmon n] at this
  · intro n hm
    cases e : (w.gens n).builder with
    | off =>
      have := hstuck (.init n) (Or.inr ⟨n, rfl⟩)
      simp [World.step, hm, (ha n).2 e] at this
    | building s =>
      have := hstuck (.build n) (Or.inl rfl)
      simp [World.step, e] at this
    | deploying =>
      have := hstuck (.deploy n) (Or.inl rfl)
      simp [World.step, e, ((hi.gens n).deploying e).1] at this
    | announcing =>
      have := hstuck (.recvGenerated n) (Or.inl rfl)
      simp [World.step, e, hl] at this
    | done => rfl

theorem stuck_of_rest (hf : c.floats.Lawful) (hn : [] ∉ c.names) (h : Reaches c sub w) (hr : AtRest c w)
    (l : Label) (ho : l.Own) : step c w l = none := by
  have hi := Inv.reaches hf hn h
  have ha := Aux.reaches h
  have hmon : ∀ n, (w.gens n).monitor = .waiting := by
    intro n
    by_cases hm : n ∈ c.names
    · exact hr.monitors n hm
    · exact Classical.byContradiction fun e => hm ((ha n).1 e)
  have hb : ∀ n, n ∉ c.names → (w.gens n).builder = .off ∨ (w.gens n).builder = .done := by
    intro n hm
    cases e : (w.gens n).builder with
    | off => exact Or.inl rfl
    | building s => exact absurd ((hi.gens n).building s e).2.2 hm
    | deploying => exact absurd ((hi.gens n).deploying e).2.2 hm
    | announcing => exact absurd ((hi.gens n).ready ((hi.gens n).announcing e)).2 hm
    | done => exact Or.inr rfl
  have hb' : ∀ n, (w.gens n).builder = .off ∨ (w.gens n).builder = .done := by
    intro n
    by_cases hm : n ∈ c.names
    · exact Or.inr (hr.built n hm)
    · exact hb n hm
  cases l with
  | init n =>
    simp only [World.step]
    rw [if_neg]
    rintro ⟨h1, h2⟩
    have := (hi.gens n).unavailable h2
    rw [hr.built n h1] at this
    cases this
  | build n => rcases hb' n with e | e <;> simp [World.step, e]
  | deploy n => rcases hb' n with e | e <;> simp [World.step, e]
  | genCompute n => simp [World.step, hmon n]
  | genReset n => simp [World.step, hmon n]
  | recvGenerated n => rcases hb' n with e | e <;> simp [World.step, e]
  | recvTraffic n => simp [World.step, hmon n]
  | recvStatus n => simp [World.step, hmon n]
  | recvMain => simp [World.step, hr.queue]
  | listener => simp [World.step, listenerStep, hr.listener]
  | selector => simp [World.step, selectorStep, hr.selector]
  | searchNext => simp [World.step, hr.searcher]
  | engineSearch b => simp [World.step, hr.searcher]
  | readMatched => simp [World.step, hr.searcher]
  | writeMatched => simp [World.step, hr.searcher]
  | track t => simp [World.step, hr.searcher]
  | mainRecv => simp [World.step, hr.queue]
  | genTick n => rcases ho with ho | ⟨m, ho⟩ <;> cases ho
  | tick o => rcases ho with ho | ⟨m, ho⟩ <;> cases ho
  | search o => rcases ho with ho | ⟨m, ho⟩ <;> cases ho
  | manageAdd p u => rcases ho with ho | ⟨m, ho⟩ <;> cases ho
  | manageDelete p u => rcases ho with ho | ⟨m, ho⟩ <;> cases ho

/-- how far the listener is from reading again -/
def Listener.steps : Listener F → Nat
  | .idle => 0
  | .send _ => 1
  | .evalSelected => 2
  | .store .. => 2
  | .setCurrent _ => 3
  | .compare _ => 4
  | .generated _ => 5

theorem steps_listener (hc : w'.crashed = false) (hs : listenerStep c w = some w') :
    Listener.steps w'.listener < Listener.steps w.listener := by
  unfold listenerStep at hs
  split at hs
  · cases hs
  · split at hs
    · cases hs; cases hc
    · rename_i e _
      split at hs <;> cases hs <;> simp [Listener.steps, e]
  · rename_i e
    split at hs <;> cases hs <;> simp [Listener.steps, e]
  · rename_i e; cases hs; simp [Listener.steps, e]
  · rename_i e; cases hs; simp [Listener.steps, e]
  · rename_i e; cases hs; simp [Listener.steps, e]
  · rename_i e
    obtain ⟨u, hu, rfl⟩ := Option.map_eq_some_iff.mp hs
    simp [Listener.steps, e]

/-- after the announcement the engine is ready -/
theorem done_ready (h : Reaches c sub w) (n : Str) :
    (w.gens n).builder = .announcing ∨ (w.gens n).builder = .done → (w.gens n).fsm = .ready := by
  obtain ⟨ls, hr⟩ := h
  refine run_induct (P := fun w : World F => ∀ n, (w.gens n).builder = .announcing ∨ (w.gens n).builder = .done →
    (w.gens n).fsm = .ready) ?_ ls _ _ (by intro n; simp [start]) hr n
  intro w l w' h hs
  have set : ∀ (n : Str) (g : Gen F), w'.gens = upd w.gens n g →
      (g.builder = .announcing ∨ g.builder = .done → g.fsm = .ready) →
      ∀ n, (w'.gens n).builder = .announcing ∨ (w'.gens n).builder = .done → (w'.gens n).fsm = .ready := by
    intro n g e hg m
    rw [e]
    by_cases hm : m = n
    · subst hm; rw [upd_same]; exact hg
    · rw [upd_other _ _ hm]; exact h m
  have same : w'.gens = w.gens → ∀ n, (w'.gens n).builder = .announcing ∨ (w'.gens n).builder = .done →
      (w'.gens n).fsm = .ready := by
    intro e n; rw [e]; exact h n
  cases l <;> simp only [World.step] at hs
  case init n =>
    split at hs <;> cases hs
    exact set n _ rfl (by simp)
  case build n =>
    split at hs <;> cases hs
    exact set n _ rfl (by simp)
  case deploy n =>
    split at hs <;> cases hs
    exact set n _ rfl (by simp)
  case genTick n =>
    split at hs
    · split at hs <;> cases hs
      exact set n _ rfl (h n)
    · cases hs
  case genCompute n =>
    split at hs
    · split at hs <;> cases hs <;> exact set n _ rfl (h n)
    · cases hs
  case genReset n =>
    split at hs <;> cases hs
    exact set n _ rfl (h n)
  case recvGenerated n =>
    split at hs <;> cases hs
    rename_i e
    exact set n _ rfl (fun _ => h n (Or.inl e))
  case recvTraffic n =>
    split at hs <;> cases hs
    exact set n _ rfl (h n)
  case recvStatus n =>
    split at hs <;> cases hs
    exact set n _ rfl (h n)
  case recvMain =>
    split at hs
    · split at hs <;> cases hs <;> exact same rfl
    · cases hs
  case listener =>
    refine same ?_
    unfold World.listenerStep at hs
    split at hs
    · cases hs
    · split at hs
      · cases hs; rfl
      · split at hs <;> cases hs <;> rfl
    · split at hs <;> cases hs <;> rfl
    · cases hs; rfl
    · cases hs; rfl
    · cases hs; rfl
    · obtain ⟨u, hu, rfl⟩ := Option.map_eq_some_iff.mp hs
      cases left_push hu; rfl
  case tick order =>
    split at hs
    · split at hs <;> cases hs
      exact same rfl
    · cases hs
  case selector =>
    refine same ?_
    unfold World.selectorStep at hs
    split at hs
    · cases hs
    · cases hs; rfl
    · dsimp only at hs
      split at hs <;> cases hs <;> rfl
    · split at hs <;> cases hs <;> rfl
    · cases hs; rfl
    · cases hs; rfl
    · obtain ⟨u, hu, rfl⟩ := Option.map_eq_some_iff.mp hs
      cases left_push hu; rfl
  case search order =>
    split at hs
    · split at hs <;> cases hs
      exact same rfl
    · cases hs
  case searchNext =>
    split at hs
    · split at hs <;> cases hs <;> exact same rfl
    · split at hs <;> cases hs <;> exact same rfl
    · cases hs
  case engineSearch b =>
    split at hs
    · split at hs
      · cases hs; exact same rfl
      · split at hs <;> cases hs <;> exact same rfl
    · cases hs
  case readMatched =>
    split at hs <;> cases hs
    exact same rfl
  case writeMatched =>
    split at hs <;> cases hs
    rename_i n rest m _
    exact set n _ rfl (h n)
  case track t =>
    split at hs
    · rename_i n rest _
      split at hs <;> cases hs
      exact set n _ rfl (h n)
    · cases hs
  case mainRecv =>
    split at hs <;> cases hs
    exact same rfl
  case manageAdd => cases left_push hs; exact same rfl
  case manageDelete => cases left_push hs; exact same rfl

/-- without a tick of a generator there is no report -/
theorem own_silent {ls : List Label} : ∀ {w w' : World F}, (∀ l ∈ ls, l.Own) → run c w ls = some w' →
    (∀ n, (w.gens n).monitor = .waiting) → w.sent = [] → w'.sent = [] := by
  induction ls with
  | nil => intro w w' _ hr _ h; cases hr; exact h
  | cons l ls ih =>
    intro w w' ho hr hm hsent
    simp only [run] at hr
    split at hr
    · cases hr
    obtain ⟨u, hs, hr⟩ := Option.bind_eq_some_iff.mp hr
    suffices hu : (∀ n, (u.gens n).monitor = .waiting) ∧ u.sent = [] from
      ih (fun m hm => ho m (by simp [hm])) hr hu.1 hu.2
    have set : ∀ (n : Str) (g : Gen F), u.gens = upd w.gens n g → g.monitor = .waiting →
        ∀ n, (u.gens n).monitor = .waiting := by
      intro n g e hg m
      rw [e]
      by_cases hmn : m = n
      · subst hmn; rw [upd_same]; exact hg
      · rw [upd_other _ _ hmn]; exact hm m
    have hl := ho l (by simp)
    clear hr ih ho
    cases l <;> simp only [World.step] at hs
    case init n =>
      split at hs <;> cases hs
      exact ⟨set n _ rfl (hm n), hsent⟩
    case build n =>
      split at hs <;> cases hs
      exact ⟨set n _ rfl (hm n), hsent⟩
    case deploy n =>
      split at hs <;> cases hs
      exact ⟨set n _ rfl (hm n), hsent⟩
    case genTick n => rcases hl with ho | ⟨m, ho⟩ <;> cases ho
    case genCompute n => rw [hm n] at hs; cases hs
    case genReset n => rw [hm n] at hs; cases hs
    case recvGenerated n =>
      split at hs <;> cases hs
      exact ⟨set n _ rfl (hm n), hsent⟩
    case recvTraffic n =>
      split at hs <;> cases hs
      rename_i e
      rw [hm n] at e; cases e
    case recvStatus n =>
      split at hs <;> cases hs
      rename_i e
      rw [hm n] at e; cases e
    case recvMain =>
      split at hs
      · split at hs <;> cases hs <;> exact ⟨hm, hsent⟩
      · cases hs
    case listener =>
      unfold World.listenerStep at hs
      split at hs
      · cases hs
      · split at hs
        · cases hs; exact ⟨hm, hsent⟩
        · split at hs <;> cases hs <;> exact ⟨hm, hsent⟩
      · split at hs <;> cases hs <;> exact ⟨hm, hsent⟩
      · cases hs; exact ⟨hm, hsent⟩
      · cases hs; exact ⟨hm, hsent⟩
      · cases hs; exact ⟨hm, hsent⟩
      · obtain ⟨u, hu, rfl⟩ := Option.map_eq_some_iff.mp hs
        cases left_push hu; exact ⟨hm, hsent⟩
    case tick order => rcases hl with ho | ⟨m, ho⟩ <;> cases ho
    case selector =>
      unfold World.selectorStep at hs
      split at hs
      · cases hs
      · cases hs; exact ⟨hm, hsent⟩
      · dsimp only at hs
        split at hs <;> cases hs <;> exact ⟨hm, hsent⟩
      · split at hs <;> cases hs <;> exact ⟨hm, hsent⟩
      · cases hs; exact ⟨hm, hsent⟩
      · cases hs; exact ⟨hm, hsent⟩
      · obtain ⟨u, hu, rfl⟩ := Option.map_eq_some_iff.mp hs
        cases left_push hu; exact ⟨hm, hsent⟩
    case search order => rcases hl with ho | ⟨m, ho⟩ <;> cases ho
    case searchNext =>
      split at hs
      · split at hs <;> cases hs <;> exact ⟨hm, hsent⟩
      · split at hs <;> cases hs <;> exact ⟨hm, hsent⟩
      · cases hs
    case engineSearch b =>
      split at hs
      · split at hs
        · cases hs; exact ⟨hm, hsent⟩
        · split at hs <;> cases hs <;> exact ⟨hm, hsent⟩
      · cases hs
    case readMatched =>
      split at hs <;> cases hs
      exact ⟨hm, hsent⟩
    case writeMatched =>
      split at hs <;> cases hs
      rename_i n rest m _
      exact ⟨set n _ rfl (hm n), hsent⟩
    case track t =>
      split at hs
      · rename_i n rest _
        split at hs <;> cases hs
        exact ⟨set n _ rfl (hm n), hsent⟩
      · cases hs
    case mainRecv =>
      split at hs <;> cases hs
      exact ⟨hm, hsent⟩
    case manageAdd => rcases hl with ho | ⟨m, ho⟩ <;> cases ho
    case manageDelete => rcases hl with ho | ⟨m, ho⟩ <;> cases ho

end World
end Gosstrak
