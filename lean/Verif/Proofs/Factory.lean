import Verif.Spec.Factory

namespace Gosstrak
namespace World
variable {F : Type} {c : Config F} {sub : Subs} {w w' : World F} {l : Label}

theorem upd_same {α : Type} (f : Str → α) (n : Str) (v : α) : upd f n v n = v := by simp [upd]

theorem upd_other {α : Type} (f : Str → α) {n m : Str} (v : α) (h : m ≠ n) : upd f n v m = f m := by
  simp [upd, h]

/-- a positive number -/
def Pos (c : Config F) (v : F) : Prop := c.floats.lt c.floats.zero v = true

structure GenInv (c : Config F) (sub : Subs) (n : Str) (g : Gen F) : Prop where
  building : ∀ s, g.builder = .building s → s = sub ∧ g.fsm = .generating ∧ n ∈ c.names
  deploying : g.builder = .deploying → g.fsm = .generating ∧ g.engine = some sub ∧ n ∈ c.names
  announcing : g.builder = .announcing → g.fsm = .ready
  ready : g.fsm = .ready → g.engine = some sub ∧ n ∈ c.names
  unavailable : g.fsm = .unavailable → g.builder = .off
  engine : ∀ s, g.engine = some s → s = sub
  events : g.events ≠ 0 → g.fsm = .ready
  status : ∀ v, g.monitor = .sendStatus v → g.fsm = .ready ∧ Pos c v

def MsgInv (c : Config F) (R : Str → Prop) : Msg F → Prop
  | .status n v => R n ∧ Pos c v
  | _ => True

def ListenerInv (c : Config F) (R : Str → Prop) : Listener F → Prop
  | .generated n | .compare n | .setCurrent n => R n
  | .store n v => R n ∧ Pos c v
  | .send m => MsgInv c R m
  | _ => True

def SelectorInv (c : Config F) (R : Str → Prop) : Selector F → Prop
  | .range _ n v _ => (n ≠ [] → R n) ∧ (v = c.floats.zero ∨ Pos c v)
  | .decide n _ _ => n ≠ [] → R n
  | .setCurrent n => n ≠ [] ∧ R n
  | .send m => MsgInv c R m
  | _ => True

def SearcherInv (R : Str → Prop) : Searcher → Prop
  | .call n _ | .readMatched n _ | .writeMatched n _ _ | .track n _ => R n
  | _ => True

structure Inv (c : Config F) (sub : Subs) (w : World F) : Prop where
  ok : w.crashed = false
  subs : w.subs = sub
  gens : ∀ n, GenInv c sub n (w.gens n)
  current : w.current ≠ [] → (w.gens w.current).fsm = .ready
  perf : ∀ n, Pos c (w.perf n) → (w.gens n).fsm = .ready
  listener : ListenerInv c (fun n => (w.gens n).fsm = .ready) w.listener
  queue : ∀ m ∈ w.queue, MsgInv c (fun n => (w.gens n).fsm = .ready) m
  selector : SelectorInv c (fun n => (w.gens n).fsm = .ready) w.selector
  searching : w.searcher ≠ .idle → w.current ≠ []
  searcher : SearcherInv (fun n => (w.gens n).fsm = .ready) w.searcher

theorem MsgInv.mono {R S : Str → Prop} (hRS : ∀ n, R n → S n) {m : Msg F} (h : MsgInv c R m) :
    MsgInv c S m := by
  cases m <;> simp only [MsgInv] at * <;> exact ⟨hRS _ h.1, h.2⟩

theorem ListenerInv.mono {R S : Str → Prop} (hRS : ∀ n, R n → S n) {m : Listener F}
    (h : ListenerInv c R m) : ListenerInv c S m := by
  cases m <;> simp only [ListenerInv] at *
  · exact hRS _ h
  · exact hRS _ h
  · exact hRS _ h
  · exact ⟨hRS _ h.1, h.2⟩
  · exact h.mono hRS

theorem SelectorInv.mono {R S : Str → Prop} (hRS : ∀ n, R n → S n) {m : Selector F}
    (h : SelectorInv c R m) : SelectorInv c S m := by
  cases m <;> simp only [SelectorInv] at *
  · exact ⟨fun e => hRS _ (h.1 e), h.2⟩
  · exact fun e => hRS _ (h e)
  · exact ⟨h.1, hRS _ h.2⟩
  · exact h.mono hRS

theorem SearcherInv.mono {R S : Str → Prop} (hRS : ∀ n, R n → S n) {m : Searcher}
    (h : SearcherInv R m) : SearcherInv S m := by
  cases m <;> simp only [SearcherInv] at * <;> exact hRS _ h

theorem Inv.setGen (h : Inv c sub w) (n : Str) (g : Gen F) (hg : GenInv c sub n g)
    (hr : (w.gens n).fsm = .ready → g.fsm = .ready) : Inv c sub (w.setGen n g) := by
  have hRS : ∀ m, (w.gens m).fsm = .ready → (upd w.gens n g m).fsm = .ready := by
    intro m hm
    by_cases e : m = n
    · subst e; rw [upd_same]; exact hr hm
    · rw [upd_other _ _ e]; exact hm
  constructor
  · exact h.ok
  · exact h.subs
  · intro m
    show GenInv c sub m (upd w.gens n g m)
    by_cases e : m = n
    · subst e; rw [upd_same]; exact hg
    · rw [upd_other _ _ e]; exact h.gens m
  · exact fun e => hRS _ (h.current e)
  · exact fun m e => hRS _ (h.perf m e)
  · exact h.listener.mono hRS
  · exact fun m hm => (h.queue m hm).mono hRS
  · exact h.selector.mono hRS
  · exact h.searching
  · exact h.searcher.mono hRS

theorem Inv.setListener (h : Inv c sub w) (x : Listener F)
    (hx : ListenerInv c (fun n => (w.gens n).fsm = .ready) x) :
    Inv c sub { w with listener := x } :=
  ⟨h.ok, h.subs, h.gens, h.current, h.perf, hx, h.queue, h.selector, h.searching, h.searcher⟩

theorem Inv.setSelector (h : Inv c sub w) (x : Selector F)
    (hx : SelectorInv c (fun n => (w.gens n).fsm = .ready) x) :
    Inv c sub { w with selector := x } :=
  ⟨h.ok, h.subs, h.gens, h.current, h.perf, h.listener, h.queue, hx, h.searching, h.searcher⟩

theorem Inv.setSearcher (h : Inv c sub w) (x : Searcher) (hc : x ≠ .idle → w.current ≠ [])
    (hx : SearcherInv (fun n => (w.gens n).fsm = .ready) x) :
    Inv c sub { w with searcher := x } :=
  ⟨h.ok, h.subs, h.gens, h.current, h.perf, h.listener, h.queue, h.selector, hc, hx⟩

theorem Inv.setQueue (h : Inv c sub w) (q : List (Msg F))
    (hx : ∀ m ∈ q, MsgInv c (fun n => (w.gens n).fsm = .ready) m) :
    Inv c sub { w with queue := q } :=
  ⟨h.ok, h.subs, h.gens, h.current, h.perf, h.listener, hx, h.selector, h.searching, h.searcher⟩

theorem Inv.setHits (h : Inv c sub w) (q : Str → Nat) : Inv c sub { w with hits := q } :=
  ⟨h.ok, h.subs, h.gens, h.current, h.perf, h.listener, h.queue, h.selector, h.searching, h.searcher⟩

theorem Inv.setSent (h : Inv c sub w) (q : List (Msg F)) : Inv c sub { w with sent := q } :=
  ⟨h.ok, h.subs, h.gens, h.current, h.perf, h.listener, h.queue, h.selector, h.searching, h.searcher⟩

theorem Inv.recv (h : Inv c sub w) (n : Str) (g : Gen F) (hg : GenInv c sub n g)
    (hr : (w.gens n).fsm = .ready → g.fsm = .ready) (x : Listener F)
    (hx : ListenerInv c (fun m => ((w.setGen n g).gens m).fsm = .ready) x) (q : List (Msg F)) :
    Inv c sub { w.setGen n g with listener := x, sent := q } :=
  ((h.setGen n g hg hr).setListener x hx).setSent q

theorem Inv.setSeen (h : Inv c sub w) (q : List (Msg F)) : Inv c sub { w with seen := q } :=
  ⟨h.ok, h.subs, h.gens, h.current, h.perf, h.listener, h.queue, h.selector, h.searching, h.searcher⟩

theorem Inv.setCurrent' (h : Inv c sub w) (n : Str) (hn : n ≠ []) (hr : (w.gens n).fsm = .ready) :
    Inv c sub { w with current := n } :=
  ⟨h.ok, h.subs, h.gens, fun _ => hr, h.perf, h.listener, h.queue, h.selector, fun _ => hn, h.searcher⟩

theorem Inv.setPerf (h : Inv c sub w) (n : Str) (v : F) (hr : (w.gens n).fsm = .ready) :
    Inv c sub { w with perf := upd w.perf n v } := by
  refine ⟨h.ok, h.subs, h.gens, h.current, ?_, h.listener, h.queue, h.selector, h.searching, h.searcher⟩
  intro m hm
  by_cases e : m = n
  · subst e; exact hr
  · exact h.perf m (by rwa [show ({ w with perf := upd w.perf n v } : World F).perf m = w.perf m from
      upd_other _ _ e] at hm)

theorem Inv.push (h : Inv c sub w) {m : Msg F} (hm : MsgInv c (fun n => (w.gens n).fsm = .ready) m)
    (hs : push c w m = some w') : Inv c sub w' ∧ w'.gens = w.gens := by
  unfold World.push at hs
  split at hs <;> simp only [Option.some.injEq, reduceCtorEq] at hs
  subst hs
  refine ⟨h.setQueue _ ?_, rfl⟩
  intro x hx
  rcases List.mem_append.mp hx with hx | hx
  · exact h.queue x hx
  · rw [List.mem_singleton.mp hx]; exact hm

theorem Inv.nonempty (hn : [] ∉ c.names) (h : Inv c sub w) {n : Str} (hr : (w.gens n).fsm = .ready) :
    n ≠ [] := by
  rintro rfl
  exact hn ((h.gens []).ready hr).2

theorem Inv.listenerStep (hn : [] ∉ c.names) (h : Inv c sub w)
    (hs : listenerStep c w = some w') : Inv c sub w' := by
  have hl := h.listener
  unfold World.listenerStep at hs
  split at hs
  case h_1 => cases hs
  case h_2 n e =>
    rw [e] at hl
    have hr := ((h.gens n).ready hl).1
    split at hs
    · rename_i e'; rw [hr] at e'; cases e'
    split at hs <;> cases hs <;> exact h.setListener _ hl
  case h_3 n e =>
    rw [e] at hl
    split at hs <;> cases hs
    · exact h.setListener _ hl
    · exact h.setListener _ trivial
  case h_4 n e =>
    rw [e] at hl
    cases hs
    exact (h.setCurrent' n (h.nonempty hn hl) hl).setListener _ trivial
  case h_5 e => cases hs; exact h.setListener _ trivial
  case h_6 n v e =>
    rw [e] at hl
    cases hs
    exact (h.setPerf n v hl.1).setListener _ hl
  case h_7 m e =>
    rw [e] at hl
    obtain ⟨w1, h1, rfl⟩ := Option.map_eq_some_iff.mp hs
    exact (h.push hl h1).1.setListener _ trivial

theorem Inv.selectorStep (hf : c.floats.Lawful) (h : Inv c sub w)
    (hs : selectorStep c w = some w') : Inv c sub w' := by
  have hl := h.selector
  unfold World.selectorStep at hs
  split at hs
  case h_1 => cases hs
  case h_2 e => rw [e] at hl; cases hs; exact h.setSelector _ hl.1
  case h_3 k rest best perf seen e =>
    rw [e] at hl
    dsimp only at hs
    split at hs <;> cases hs
    · rename_i hlt
      have hp : Pos c (w.perf k) := by
        rcases hl.2 with e2 | e2
        · rw [e2] at hlt; exact hlt
        · exact hf.trans _ _ _ e2 hlt
      exact h.setSelector _ ⟨fun _ => h.perf k hp, Or.inr hp⟩
    · exact h.setSelector _ hl
  case h_4 best perf seen e =>
    rw [e] at hl
    split at hs <;> cases hs
    · rename_i e2
      have : best ≠ [] := fun e => by simp [e] at e2
      exact h.setSelector _ ⟨this, hl this⟩
    · exact h.setSelector _ trivial
  case h_5 best e =>
    rw [e] at hl
    cases hs
    exact (h.setCurrent' best hl.1 hl.2).setSelector _ trivial
  case h_6 e => cases hs; exact h.setSelector _ trivial
  case h_7 m e =>
    rw [e] at hl
    obtain ⟨w1, h1, rfl⟩ := Option.map_eq_some_iff.mp hs
    exact (h.push hl h1).1.setSelector _ trivial

theorem Inv.step (hf : c.floats.Lawful) (hn : [] ∉ c.names) (h : Inv c sub w)
    (hs : step c w l = some w') : Inv c sub w' := by
  cases l with
  | init n =>
    simp only [World.step] at hs
    split at hs <;> cases hs
    rename_i e
    have hg := h.gens n
    refine h.setGen n _ ?_ (fun e1 => by rw [e.2] at e1; cases e1)
    have hb := hg.unavailable e.2
    constructor
    · rintro s hs; cases hs; exact ⟨h.subs, rfl, e.1⟩
    all_goals dsimp only
    · intro h; cases h
    · intro h; cases h
    · intro h; cases h
    · intro h; cases h
    · exact hg.engine
    · intro h1; have := hg.events h1; rw [e.2] at this; cases this
    · intro v h1; have := (hg.status v h1).1; rw [e.2] at this; cases this
  | build n =>
    simp only [World.step] at hs
    split at hs <;> cases hs
    rename_i s e
    have hg := h.gens n
    obtain ⟨rfl, h1, h2⟩ := hg.building _ e
    refine h.setGen n _ ?_ (by exact fun e1 => e1)
    constructor <;> dsimp only
    · intro _ h; cases h
    · intro _; exact ⟨h1, rfl, h2⟩
    · intro h; cases h
    · intro h; rw [h1] at h; cases h
    · intro h; rw [h1] at h; cases h
    · intro s h; cases h; rfl
    · exact hg.events
    · exact hg.status
  | deploy n =>
    simp only [World.step] at hs
    split at hs <;> cases hs
    rename_i e
    have hg := h.gens n
    obtain ⟨h1, h2, h3⟩ := hg.deploying e.1
    refine h.setGen n _ ?_ (fun e1 => rfl)
    constructor <;> dsimp only
    · intro _ h; cases h
    · intro h; cases h
    · intro _; rfl
    · intro _; exact ⟨h2, h3⟩
    · intro h; cases h
    · exact hg.engine
    · intro _; rfl
    · intro v hv; exact ⟨rfl, (hg.status v hv).2⟩
  | genTick n =>
    simp only [World.step] at hs
    split at hs <;> try cases hs
    split at hs <;> cases hs
    have hg := h.gens n
    refine h.setGen n _ ?_ (by exact fun e1 => e1)
    exact ⟨hg.building, hg.deploying, hg.announcing, hg.ready, hg.unavailable, hg.engine, hg.events,
      fun v h => by cases h⟩
  | genCompute n =>
    simp only [World.step] at hs
    split at hs <;> try cases hs
    have hg := h.gens n
    split at hs <;> cases hs
    · rename_i e
      refine h.setGen n _ ?_ (by exact fun e1 => e1)
      refine ⟨hg.building, hg.deploying, hg.announcing, hg.ready, hg.unavailable, hg.engine, hg.events, ?_⟩
      rintro v h
      cases h
      by_cases e0 : (w.gens n).events = 0
      · rw [e0] at e
        by_cases e1 : (w.gens n).totalTime = 0
        · rw [e1] at e; exact absurd hf.div_nan e.2
        · have := hf.div_zero _ e1; simp [this] at e
      · exact ⟨hg.events e0, hf.div_pos _ _ e0⟩
    · refine h.setGen n _ ?_ (by exact fun e1 => e1)
      exact ⟨hg.building, hg.deploying, hg.announcing, hg.ready, hg.unavailable, hg.engine, hg.events,
        fun v h => by cases h⟩
  | genReset n =>
    simp only [World.step] at hs
    split at hs <;> cases hs
    have hg := h.gens n
    refine h.setGen n _ ?_ (by exact fun e1 => e1)
    exact ⟨hg.building, hg.deploying, hg.announcing, hg.ready, hg.unavailable, hg.engine,
      fun h => absurd rfl h, fun v h => by cases h⟩
  | recvGenerated n =>
    simp only [World.step] at hs
    split at hs <;> cases hs
    rename_i e1 e2
    have hg := h.gens n
    refine Inv.setListener (w := w.setGen n _) (h.setGen n _ ?_ ?_) _ ?_
    · exact ⟨fun _ h => (nomatch h), fun h => (nomatch h), fun h => (nomatch h), hg.ready,
        fun h => (by rw [hg.announcing e2] at h; cases h), hg.engine, hg.events, hg.status⟩
    · exact id
    · simp [ListenerInv, World.setGen, upd_same, hg.announcing e2]
  | recvTraffic n =>
    simp only [World.step] at hs
    split at hs <;> cases hs
    have hg := h.gens n
    refine h.recv n _ ?_ ?_ _ ?_ _
    rotate_left
    · exact id
    · trivial
    exact ⟨hg.building, hg.deploying, hg.announcing, hg.ready, hg.unavailable, hg.engine, hg.events,
      fun v h => by cases h⟩
  | recvStatus n =>
    simp only [World.step] at hs
    split at hs <;> cases hs
    rename_i v e1 e2
    have hg := h.gens n
    refine h.recv n _ ?_ ?_ _ ?_ _
    · exact ⟨hg.building, hg.deploying, hg.announcing, hg.ready, hg.unavailable, hg.engine, hg.events,
        fun v h => by cases h⟩
    · exact id
    · simp [ListenerInv, World.setGen, upd_same, hg.status v e2]
  | recvMain =>
    simp only [World.step] at hs
    split at hs <;> try cases hs
    rename_i m q e1 e2
    have hq : ∀ x ∈ q, MsgInv c (fun n => (w.gens n).fsm = .ready) x := fun x hx =>
      h.queue x (by rw [e2]; exact List.mem_cons_of_mem _ hx)
    have hm := h.queue m (by rw [e2]; exact List.mem_cons_self)
    split at hs <;> cases hs
    · exact (h.setQueue q hq).setListener _ trivial
    · exact (h.setQueue q hq).setListener _ hm
    · exact h.setQueue q hq
    · exact h.setQueue q hq
    · exact h.setQueue q hq
  | listener => exact h.listenerStep hn hs
  | tick order =>
    simp only [World.step] at hs
    split at hs <;> try cases hs
    split at hs <;> cases hs
    exact h.setSelector _ ⟨fun e => absurd rfl e, Or.inl rfl⟩
  | selector => exact h.selectorStep hf hs
  | search order =>
    simp only [World.step] at hs
    split at hs <;> try cases hs
    split at hs <;> cases hs
    rename_i e
    exact h.setSearcher _ (fun _ => by simpa [isActive] using e.1) trivial
  | searchNext =>
    simp only [World.step] at hs
    split at hs <;> try cases hs
    · rename_i n rest e
      have hc := h.searching (by rw [e]; simp)
      split at hs <;> cases hs
      · rename_i e2
        exact h.setSearcher _ (fun _ => hc) e2.2
      · exact h.setSearcher _ (fun _ => hc) trivial
    · rename_i e
      have hc := h.searching (by rw [e]; simp)
      split at hs <;> cases hs
      · exact h.setSearcher _ (fun _ => hc) (h.current hc)
      · rename_i e2
        exact absurd ((h.gens _).ready (h.current hc)).2 e2
  | engineSearch found =>
    simp only [World.step] at hs
    split at hs <;> try cases hs
    rename_i n rest e
    have hc := h.searching (by rw [e]; simp)
    have hr := h.searcher
    rw [e] at hr
    split at hs
    · rename_i e2
      rw [((h.gens n).ready hr).1] at e2
      cases e2
    split at hs <;> cases hs
    · exact (h.setSearcher (.readMatched n rest) (fun _ => hc) hr).setHits _
    · exact h.setSearcher _ (fun _ => hc) hr
  | readMatched =>
    simp only [World.step] at hs
    split at hs <;> cases hs
    rename_i n rest e
    have hc := h.searching (by rw [e]; simp)
    have hr := h.searcher
    rw [e] at hr
    exact h.setSearcher _ (fun _ => hc) hr
  | writeMatched =>
    simp only [World.step] at hs
    split at hs <;> cases hs
    rename_i n rest m e
    have hc := h.searching (by rw [e]; simp)
    have hr := h.searcher
    rw [e] at hr
    have hg := h.gens n
    refine Inv.setSearcher (w := w.setGen n _) (h.setGen n _ ?_ ?_) _ (fun _ => hc) ?_
    · exact ⟨hg.building, hg.deploying, hg.announcing, hg.ready, hg.unavailable, hg.engine, hg.events, hg.status⟩
    · exact id
    · simp only [SearcherInv] at hr
      simp [SearcherInv, World.setGen, upd_same, hr]
  | track t =>
    simp only [World.step] at hs
    split at hs <;> try cases hs
    rename_i n rest e
    have hc := h.searching (by rw [e]; simp)
    have hr := h.searcher
    rw [e] at hr
    have hg := h.gens n
    split at hs <;> cases hs
    refine Inv.setSearcher (w := w.setGen n _) (h.setGen n _ ?_ ?_) _ (fun _ => hc) ?_
    · exact ⟨hg.building, hg.deploying, hg.announcing, hg.ready, hg.unavailable, hg.engine, fun _ => hr, hg.status⟩
    · exact id
    · cases rest <;> trivial
  | mainRecv =>
    simp only [World.step] at hs
    split at hs <;> cases hs
    rename_i m q e
    refine (h.setQueue q ?_).setSeen _
    exact fun x hx => h.queue x (by rw [e]; exact List.mem_cons_of_mem _ hx)
  | manageAdd p u => exact (h.push (m := .add p u) trivial hs).1
  | manageDelete p u => exact (h.push (m := .delete p u) trivial hs).1

theorem Inv.start (hf : c.floats.Lawful) : Inv c sub (World.start c sub) := by
  refine ⟨rfl, rfl, ?_, fun h => absurd rfl h, ?_, trivial, ?_, trivial, fun h => absurd rfl h, trivial⟩
  · intro n
    constructor <;> simp [World.start]
  · intro n h
    rw [Pos, show (World.start c sub).perf n = c.floats.zero from rfl, hf.irrefl] at h
    cases h
  · intro m hm; cases hm

theorem push_eq {m : Msg F} (hs : push c w m = some w') :
    w' = { w with queue := w.queue ++ [m] } := by
  unfold World.push at hs
  split at hs <;> simp only [Option.some.injEq, reduceCtorEq] at hs
  exact hs.symm

/-- who changes the selected engine -/
theorem current_eq (hs : step c w l = some w') :
    w'.current = w.current ∨ (l = .listener ∧ w.listener = .setCurrent w'.current) ∨
      (l = .selector ∧ w.selector = .setCurrent w'.current) := by
  cases l with
  | listener =>
    simp only [World.step, World.listenerStep] at hs
    split at hs
    case h_7 m e =>
      obtain ⟨w1, h1, rfl⟩ := Option.map_eq_some_iff.mp hs
      rw [push_eq h1]; exact Or.inl rfl
    case h_4 n e => cases hs; exact Or.inr (Or.inl ⟨rfl, e⟩)
    all_goals (repeat' split at hs) <;> cases hs <;> exact Or.inl rfl
  | selector =>
    simp only [World.step, World.selectorStep] at hs
    split at hs
    case h_7 m e =>
      obtain ⟨w1, h1, rfl⟩ := Option.map_eq_some_iff.mp hs
      rw [push_eq h1]; exact Or.inl rfl
    case h_5 n e => cases hs; exact Or.inr (Or.inr ⟨rfl, e⟩)
    all_goals (repeat' split at hs) <;> cases hs <;> exact Or.inl rfl
  | manageAdd p u => rw [push_eq (m := .add p u) hs]; exact Or.inl rfl
  | manageDelete p u => rw [push_eq (m := .delete p u) hs]; exact Or.inl rfl
  | _ =>
    simp only [World.step] at hs
    (repeat' split at hs) <;> cases hs <;> exact Or.inl rfl

/-- induction over executions -/
theorem run_induct {P : World F → Prop} (hstep : ∀ w l w', P w → step c w l = some w' → P w') :
    ∀ (ls : List Label) (w w' : World F), P w → run c w ls = some w' → P w' := by
  intro ls
  induction ls with
  | nil => intro w w' h hr; cases hr; exact h
  | cons l ls ih =>
    intro w w' h hr
    simp only [run] at hr
    split at hr
    · cases hr
    obtain ⟨w1, h1, h2⟩ := Option.bind_eq_some_iff.mp hr
    exact ih w1 w' (hstep w l w1 h h1) h2

theorem Inv.reaches (hf : c.floats.Lawful) (hn : [] ∉ c.names) (h : Reaches c sub w) : Inv c sub w := by
  obtain ⟨ls, hr⟩ := h
  exact run_induct (fun _ _ _ h1 h2 => h1.step hf hn h2) ls _ _ (Inv.start hf) hr

end World
end Gosstrak
