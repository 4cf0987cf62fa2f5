import Verif.Proofs.FactoryMatched

namespace Gosstrak
namespace World
variable {F : Type} {c : Config F} {sub : Subs} {w w' : World F} {l : Label}

/-- the program can go from `w` to `w'` by itself -/
def Leads (c : Config F) (w w' : World F) : Prop :=
  ∃ ls : List Label, (∀ l ∈ ls, l.internal = true) ∧ run c w ls = some w'

/-- some execution goes from `w` to `w'` -/
def MayLead (c : Config F) (w w' : World F) : Prop := ∃ ls, run c w ls = some w'

theorem Leads.refl (w : World F) : Leads c w w := ⟨[], by simp, rfl⟩

theorem Leads.trans {w1 w2 w3 : World F} (h1 : Leads c w1 w2) (h2 : Leads c w2 w3) : Leads c w1 w3 := by
  obtain ⟨ls, i1, h1⟩ := h1
  obtain ⟨ms, i2, h2⟩ := h2
  refine ⟨ls ++ ms, ?_, by rw [run_append, h1]; exact h2⟩
  intro l hl
  rcases List.mem_append.mp hl with hl | hl
  · exact i1 l hl
  · exact i2 l hl

theorem Leads.one (l : Label) (h : w.crashed = false) (hs : step c w l = some w')
    (hi : l.internal = true := by rfl) : Leads c w w' :=
  ⟨[l], by simpa using hi, by simp [run, h, hs]⟩

theorem Leads.may (h : Leads c w w') : MayLead c w w' := h.imp fun _ h => h.2

theorem MayLead.refl (w : World F) : MayLead c w w := ⟨[], rfl⟩

theorem MayLead.trans {w1 w2 w3 : World F} (h1 : MayLead c w1 w2) (h2 : MayLead c w2 w3) :
    MayLead c w1 w3 := by
  obtain ⟨ls, h1⟩ := h1
  obtain ⟨ms, h2⟩ := h2
  exact ⟨ls ++ ms, by rw [run_append, h1]; exact h2⟩

theorem MayLead.one (l : Label) (h : w.crashed = false) (hs : step c w l = some w') : MayLead c w w' :=
  ⟨[l], by simp [run, h, hs]⟩

theorem Inv.mayLead (hf : c.floats.Lawful) (hn : [] ∉ c.names) (h : Inv c sub w) (hl : MayLead c w w') :
    Inv c sub w' := by
  obtain ⟨ls, hr⟩ := hl
  exact run_induct (fun _ _ _ h1 h2 => Inv.step hf hn h1 h2) ls _ _ h hr

theorem Inv.leads (hf : c.floats.Lawful) (hn : [] ∉ c.names) (h : Inv c sub w) (hl : Leads c w w') :
    Inv c sub w' :=
  h.mayLead hf hn hl.may

/-- the main program takes all messages -/
theorem drain : ∀ (q : List (Msg F)) (w : World F), w.crashed = false → w.queue = q →
    Leads c w { w with queue := [], seen := w.seen ++ q } := by
  intro q
  induction q with
  | nil => intro w h e; rw [show ({ w with queue := [], seen := w.seen ++ [] } : World F) = w by
      cases w; simp_all]; exact Leads.refl w
  | cons m q ih =>
    intro w h e
    have h1 := Leads.one (c := c) (w := w) (w' := { w with queue := q, seen := w.seen ++ [m] }) .mainRecv h
      (by simp [step, e])
    have h2 := ih { w with queue := q, seen := w.seen ++ [m] } h rfl
    have := h1.trans h2
    simpa using this

/-- nothing under way between the factory and the main program -/
structure Rest (c : Config F) (sub : Subs) (w : World F) : Prop where
  inv : Inv c sub w
  listener : w.listener = .idle
  queue : w.queue = []

/-- the listener can finish what it does -/
theorem listener_rest (hf : c.floats.Lawful) (hn : [] ∉ c.names) (hcap : 0 < c.capacity)
    (h : Inv c sub w) : ∃ w1, Leads c w w1 ∧ Rest c sub w1 ∧ w1.gens = w.gens ∧ w1.searcher = w.searcher ∧
      w1.selector = w.selector := by
  have fin : ∀ v : World F, Inv c sub v → v.listener = .idle → ∃ w1, Leads c v w1 ∧ Rest c sub w1 ∧
      w1.gens = v.gens ∧ w1.searcher = v.searcher ∧ w1.selector = v.selector := by
    intro v hv e
    have hl := drain (c := c) v.queue v hv.ok rfl
    exact ⟨_, hl, ⟨hv.leads hf hn hl, e, rfl⟩, rfl, rfl, rfl⟩
  have send : ∀ (v : World F) (m : Msg F), Inv c sub v → v.listener = .send m → ∃ w1, Leads c v w1 ∧
      Rest c sub w1 ∧ w1.gens = v.gens ∧ w1.searcher = v.searcher ∧ w1.selector = v.selector := by
    intro v m hv e
    have hl := drain (c := c) v.queue v hv.ok rfl
    have hs := Leads.one (c := c) (w := { v with queue := [], seen := v.seen ++ v.queue })
      (w' := { v with queue := [m], seen := v.seen ++ v.queue, listener := .idle }) .listener hv.ok
      (by simp [step, World.listenerStep, e, World.push, hcap])
    have hl2 := hl.trans hs
    obtain ⟨w1, a1, a2, a3⟩ := fin _ (hv.leads hf hn hl2) rfl
    exact ⟨w1, hl2.trans a1, a2, a3⟩
  have eval : ∀ (v : World F), Inv c sub v → v.listener = .evalSelected → ∃ w1, Leads c v w1 ∧
      Rest c sub w1 ∧ w1.gens = v.gens ∧ w1.searcher = v.searcher ∧ w1.selector = v.selector := by
    intro v hv e
    have hs := Leads.one (c := c) (w := v) (w' := { v with listener := .send (.selected v.current) })
      .listener hv.ok (by simp [step, World.listenerStep, e])
    obtain ⟨w1, a1, a2, a3⟩ := send _ _ (hv.leads hf hn hs) rfl
    exact ⟨w1, hs.trans a1, a2, a3⟩
  have set : ∀ (v : World F) (n : Str), Inv c sub v → v.listener = .setCurrent n → ∃ w1, Leads c v w1 ∧
      Rest c sub w1 ∧ w1.gens = v.gens ∧ w1.searcher = v.searcher ∧ w1.selector = v.selector := by
    intro v n hv e
    have hs := Leads.one (c := c) (w := v) (w' := { v with current := n, listener := .evalSelected })
      .listener hv.ok (by simp [step, World.listenerStep, e])
    obtain ⟨w1, a1, a2, a3⟩ := eval _ (hv.leads hf hn hs) rfl
    exact ⟨w1, hs.trans a1, a2, a3⟩
  have comp : ∀ (v : World F) (n : Str), Inv c sub v → v.listener = .compare n → ∃ w1, Leads c v w1 ∧
      Rest c sub w1 ∧ w1.gens = v.gens ∧ w1.searcher = v.searcher ∧ w1.selector = v.selector := by
    intro v n hv e
    by_cases hp : c.priority v.current < c.priority n
    · have hs := Leads.one (c := c) (w := v) (w' := { v with listener := .setCurrent n })
        .listener hv.ok (by simp [step, World.listenerStep, e, hp])
      obtain ⟨w1, a1, a2, a3⟩ := set _ _ (hv.leads hf hn hs) rfl
      exact ⟨w1, hs.trans a1, a2, a3⟩
    · have hs := Leads.one (c := c) (w := v) (w' := { v with listener := .idle })
        .listener hv.ok (by simp [step, World.listenerStep, e, hp])
      obtain ⟨w1, a1, a2, a3⟩ := fin _ (hv.leads hf hn hs) rfl
      exact ⟨w1, hs.trans a1, a2, a3⟩
  cases e : w.listener with
  | idle => exact fin w h e
  | send m => exact send w m h e
  | evalSelected => exact eval w h e
  | setCurrent n => exact set w n h e
  | compare n => exact comp w n h e
  | generated n =>
    have hr : (w.gens n).engine ≠ none := by
      have := h.listener
      rw [e] at this
      rw [((h.gens n).ready this).1]; simp
    by_cases hc : w.current = []
    · have hs := Leads.one (c := c) (w := w) (w' := { w with listener := .setCurrent n })
        .listener h.ok (by simp [step, World.listenerStep, e, hr, hc])
      obtain ⟨w1, a1, a2, a3⟩ := set _ _ (h.leads hf hn hs) rfl
      exact ⟨w1, hs.trans a1, a2, a3⟩
    · have hs := Leads.one (c := c) (w := w) (w' := { w with listener := .compare n })
        .listener h.ok (by simp [step, World.listenerStep, e, hr, hc])
      obtain ⟨w1, a1, a2, a3⟩ := comp _ _ (h.leads hf hn hs) rfl
      exact ⟨w1, hs.trans a1, a2, a3⟩
  | store n v =>
    have hs := Leads.one (c := c) (w := w) (w' := { w with perf := upd w.perf n v, listener := .send (.status n v) })
      .listener h.ok (by simp [step, World.listenerStep, e])
    obtain ⟨w1, a1, a2, a3⟩ := send _ _ (h.leads hf hn hs) rfl
    exact ⟨w1, hs.trans a1, a2, a3⟩

/-- `w1` differs from `w` in the work of the monitor of `k` and what follows from it -/
structure Beside (k : Str) (w w1 : World F) : Prop where
  current : w1.current = w.current
  searcher : w1.searcher = w.searcher
  selector : w1.selector = w.selector
  others : ∀ m, m ≠ k → w1.gens m = w.gens m
  fsm : (w1.gens k).fsm = (w.gens k).fsm

theorem Beside.trans {k : Str} {w1 w2 w3 : World F} (h1 : Beside k w1 w2) (h2 : Beside k w2 w3) :
    Beside k w1 w3 :=
  ⟨h2.current.trans h1.current, h2.searcher.trans h1.searcher, h2.selector.trans h1.selector,
    fun m hm => (h2.others m hm).trans (h1.others m hm), h2.fsm.trans h1.fsm⟩

theorem beside_setGen (k : Str) (g : Gen F) (hg : g.fsm = (w.gens k).fsm) : Beside k w (w.setGen k g) :=
  ⟨rfl, rfl, rfl, fun m hm => upd_other _ _ hm, by simp [World.setGen, upd_same, hg]⟩

/-- the listener forwards a report -/
theorem forward (hf : c.floats.Lawful) (hn : [] ∉ c.names) (hcap : 0 < c.capacity) (h : Inv c sub w)
    (m : Msg F) (e : w.listener = .send m) (eq : w.queue = []) : ∃ w1, Leads c w w1 ∧ Rest c sub w1 ∧
      w1.gens = w.gens ∧ w1.searcher = w.searcher ∧ w1.selector = w.selector ∧ w1.current = w.current := by
  have hs := Leads.one (c := c) (w := w) (w' := { w with queue := [m], listener := .idle }) .listener h.ok
    (by simp [step, World.listenerStep, e, World.push, hcap, eq])
  have hl := drain (c := c) [m] { w with queue := [m], listener := .idle } h.ok rfl
  have hh := hs.trans hl
  exact ⟨_, hh, ⟨h.leads hf hn hh, rfl, rfl⟩, rfl, rfl, rfl, rfl⟩

theorem monitor_reset (hf : c.floats.Lawful) (hn : [] ∉ c.names) (h : Rest c sub w) (k : Str)
    (e : (w.gens k).monitor = .reset) : ∃ w1, Leads c w w1 ∧ Rest c sub w1 ∧ Beside k w w1 ∧
      (w1.gens k).monitor = .waiting ∧ (w1.gens k).events = 0 ∧ (w1.gens k).matched = 0 := by
  have hs := Leads.one (c := c) (w := w) (w' := w.setGen k { w.gens k with
        monitor := .waiting, events := 0, matched := 0, totalTime := 0, batch := [] }) (.genReset k) h.inv.ok
    (by simp [step, e])
  refine ⟨_, hs, ⟨h.inv.leads hf hn hs, h.listener, h.queue⟩, beside_setGen k _ rfl, ?_⟩
  simp [World.setGen, upd_same]

theorem monitor_status (hf : c.floats.Lawful) (hn : [] ∉ c.names) (hcap : 0 < c.capacity)
    (h : Rest c sub w) (k : Str) (v : F)
    (e : (w.gens k).monitor = .sendStatus v) : ∃ w1, Leads c w w1 ∧ Rest c sub w1 ∧ Beside k w w1 ∧
      (w1.gens k).monitor = .waiting ∧ (w1.gens k).events = 0 ∧ (w1.gens k).matched = 0 := by
  have hs := Leads.one (c := c) (w := w) (w' := { w.setGen k { w.gens k with monitor := .reset } with
        listener := .store k v, sent := w.sent ++ [.status k v] }) (.recvStatus k) h.inv.ok
    (by simp [step, e, h.listener])
  have hi := h.inv.leads hf hn hs
  have hs2 := hs.trans (Leads.one (c := c) (w' := { w.setGen k { w.gens k with monitor := .reset } with
        listener := .send (.status k v), sent := w.sent ++ [.status k v], perf := upd w.perf k v }) .listener hi.ok
    (by simp [step, World.listenerStep, World.setGen]))
  obtain ⟨w1, b1, b2, b3, b4, b5, b6⟩ := forward hf hn hcap (h.inv.leads hf hn hs2) _ rfl h.queue
  obtain ⟨w2, d1, d2, d3, d4⟩ := monitor_reset hf hn b2 k (by rw [b3]; simp [World.setGen, upd_same])
  refine ⟨w2, (hs2.trans b1).trans d1, d2, Beside.trans ?_ d3, d4⟩
  refine ⟨b6, b4, b5, ?_, ?_⟩
  · intro m hm; rw [b3]; exact upd_other _ _ hm
  · rw [b3]; simp [World.setGen, upd_same]

theorem monitor_compute (hf : c.floats.Lawful) (hn : [] ∉ c.names) (hcap : 0 < c.capacity)
    (h : Rest c sub w) (k : Str)
    (e : (w.gens k).monitor = .compute) : ∃ w1, Leads c w w1 ∧ Rest c sub w1 ∧ Beside k w w1 ∧
      (w1.gens k).monitor = .waiting ∧ (w1.gens k).events = 0 ∧ (w1.gens k).matched = 0 := by
  let v := c.floats.div (w.gens k).events (w.gens k).totalTime
  by_cases hv : (c.floats.lt v c.floats.zero ∨ c.floats.lt c.floats.zero v) ∧ ¬ c.floats.isNaN v
  · have hs := Leads.one (c := c) (w := w) (w' := w.setGen k { w.gens k with monitor := .sendStatus v })
      (.genCompute k) h.inv.ok (by simp only [step, e]; rw [if_pos hv])
    obtain ⟨w1, b1, b2, b3, b4⟩ := monitor_status hf hn hcap (w := w.setGen k _)
      ⟨h.inv.leads hf hn hs, h.listener, h.queue⟩ k v (by simp [World.setGen, upd_same])
    exact ⟨w1, hs.trans b1, b2, Beside.trans (beside_setGen k _ (by rfl)) b3, b4⟩
  · have hs := Leads.one (c := c) (w := w) (w' := w.setGen k { w.gens k with monitor := .reset })
      (.genCompute k) h.inv.ok (by simp only [step, e]; rw [if_neg hv])
    obtain ⟨w1, b1, b2, b3, b4⟩ := monitor_reset hf hn (w := w.setGen k _)
      ⟨h.inv.leads hf hn hs, h.listener, h.queue⟩ k (by simp [World.setGen, upd_same])
    exact ⟨w1, hs.trans b1, b2, Beside.trans (beside_setGen k _ (by rfl)) b3, b4⟩

theorem monitor_traffic (hf : c.floats.Lawful) (hn : [] ∉ c.names) (hcap : 0 < c.capacity)
    (h : Rest c sub w) (k : Str) (a b : Nat)
    (e : (w.gens k).monitor = .sendTraffic a b) : ∃ w1, Leads c w w1 ∧ Rest c sub w1 ∧ Beside k w w1 ∧
      (w1.gens k).monitor = .waiting ∧ (w1.gens k).events = 0 ∧ (w1.gens k).matched = 0 := by
  have hs := Leads.one (c := c) (w := w) (w' := { w.setGen k { w.gens k with
        monitor := .compute, batches := (w.gens k).batches ++ [(w.gens k).batch] } with
        listener := .send (.traffic k a b), sent := w.sent ++ [.traffic k a b] }) (.recvTraffic k) h.inv.ok
    (by simp [step, e, h.listener])
  obtain ⟨w1, b1, b2, b3, b4, b5, b6⟩ := forward hf hn hcap (h.inv.leads hf hn hs) _ rfl h.queue
  obtain ⟨w2, d1, d2, d3, d4⟩ := monitor_compute hf hn hcap b2 k (by rw [b3]; simp [World.setGen, upd_same])
  refine ⟨w2, (hs.trans b1).trans d1, d2, Beside.trans ?_ d3, d4⟩
  refine ⟨b6, b4, b5, ?_, ?_⟩
  · intro m hm; rw [b3]; exact upd_other _ _ hm
  · rw [b3]; simp [World.setGen, upd_same]

/-- a monitor can finish what it does; if it was waiting nothing happens -/
theorem monitor_waiting (hf : c.floats.Lawful) (hn : [] ∉ c.names) (hcap : 0 < c.capacity)
    (h : Rest c sub w) (k : Str) : ∃ w1, Leads c w w1 ∧ Rest c sub w1 ∧ Beside k w w1 ∧
      (w1.gens k).monitor = .waiting ∧ ((w.gens k).monitor = .waiting → w1 = w) := by
  cases e : (w.gens k).monitor with
  | waiting => exact ⟨w, Leads.refl w, h, ⟨rfl, rfl, rfl, fun _ _ => rfl, rfl⟩, e, fun _ => rfl⟩
  | sendTraffic a b =>
    obtain ⟨w1, a1, a2, a3, a4, -⟩ := monitor_traffic hf hn hcap h k a b e
    exact ⟨w1, a1, a2, a3, a4, fun h => nomatch h⟩
  | compute =>
    obtain ⟨w1, a1, a2, a3, a4, -⟩ := monitor_compute hf hn hcap h k e
    exact ⟨w1, a1, a2, a3, a4, fun h => nomatch h⟩
  | sendStatus v =>
    obtain ⟨w1, a1, a2, a3, a4, -⟩ := monitor_status hf hn hcap h k v e
    exact ⟨w1, a1, a2, a3, a4, fun h => nomatch h⟩
  | reset =>
    obtain ⟨w1, a1, a2, a3, a4, -⟩ := monitor_reset hf hn h k e
    exact ⟨w1, a1, a2, a3, a4, fun h => nomatch h⟩

/-- what a search in generator `k` leaves alone -/
structure Around (k : Str) (w w1 : World F) : Prop where
  current : w1.current = w.current
  others : ∀ m, m ≠ k → w1.gens m = w.gens m
  fsm : (w1.gens k).fsm = (w.gens k).fsm

/-- the end of `Search` of a generator: the monitor takes the time -/
theorem track_finishes (hf : c.floats.Lawful) (hn : [] ∉ c.names) (hcap : 0 < c.capacity)
    (h : Rest c sub w) (k : Str) (r : Option (List Str)) (e : w.searcher = .track k r) :
    ∃ w1, Leads c w w1 ∧ Rest c sub w1 ∧ Around k w w1 ∧ w1.searcher = resume r ∧
      (w1.gens k).monitor = .waiting ∧
      ((w.gens k).monitor = .waiting → (w1.gens k).matched = (w.gens k).matched) := by
  obtain ⟨w1, a1, a2, a3, a4, a5⟩ := monitor_waiting hf hn hcap h k
  have hs := Leads.one (c := c) (w := w1) (w' := { w1.setGen k { w1.gens k with
            totalTime := (w1.gens k).totalTime + 0 / 1000, events := (w1.gens k).events + 1,
            all := (w1.gens k).all ++ [0], batch := (w1.gens k).batch ++ [0] } with searcher := resume r })
    (.track 0) a2.inv.ok (by simp [step, a3.searcher, e, a4])
  have hh := a1.trans hs
  refine ⟨_, hh, ⟨h.inv.leads hf hn hh, a2.listener, a2.queue⟩, ⟨a3.current, ?_, ?_⟩, rfl, ?_, ?_⟩
  · intro m hm
    rw [← a3.others m hm]
    exact upd_other _ _ hm
  · simp [World.setGen, upd_same, a3.fsm]
  · simp [World.setGen, upd_same, a4]
  · intro hw
    simp [World.setGen, upd_same, a5 hw]

/-- `Search` of a generator can finish, whatever the engine finds -/
theorem call_finishes (hf : c.floats.Lawful) (hn : [] ∉ c.names) (hcap : 0 < c.capacity)
    (h : Rest c sub w) (k : Str) (r : Option (List Str)) (e : w.searcher = .call k r) (found : Bool) :
    ∃ w1, Leads c w w1 ∧ Rest c sub w1 ∧ Around k w w1 ∧ w1.searcher = resume r ∧
      (w1.gens k).monitor = .waiting ∧
      ((w.gens k).monitor = .waiting → (w1.gens k).matched = (w.gens k).matched + found.toNat) := by
  have he : (w.gens k).engine ≠ none := by
    have := h.inv.searcher
    rw [e] at this
    rw [((h.inv.gens k).ready this).1]; simp
  cases found with
  | false =>
    have hs := Leads.one (c := c) (w := w) (w' := { w with searcher := .track k r })
      (.engineSearch false) h.inv.ok (by simp [step, e, he])
    obtain ⟨w1, a1, a2, a3, a4, a5, a6⟩ := track_finishes hf hn hcap (w := { w with searcher := .track k r })
      ⟨h.inv.leads hf hn hs, h.listener, h.queue⟩ k r rfl
    exact ⟨w1, hs.trans a1, a2, ⟨a3.current, a3.others, a3.fsm⟩, a4, a5, a6⟩
  | true =>
    have h1 := Leads.one (c := c) (w := w) (w' := { w with
      searcher := .readMatched k r, hits := upd w.hits k (w.hits k + 1) })
      (.engineSearch true) h.inv.ok (by simp [step, e, he])
    have h2 := h1.trans (Leads.one (c := c) (w' := { w with
      searcher := .writeMatched k r (w.gens k).matched, hits := upd w.hits k (w.hits k + 1) })
      .readMatched h.inv.ok (by simp [step]))
    have h3 := h2.trans (Leads.one (c := c) (w' := { w.setGen k { w.gens k with matched := (w.gens k).matched + 1 }
      with searcher := .track k r, hits := upd w.hits k (w.hits k + 1) }) .writeMatched h.inv.ok (by simp [step, World.setGen]))
    obtain ⟨w1, a1, a2, a3, a4, a5, a6⟩ := track_finishes hf hn hcap
      ⟨h.inv.leads hf hn h3, h.listener, h.queue⟩ k r rfl
    refine ⟨w1, h3.trans a1, a2, ⟨a3.current, ?_, ?_⟩, a4, a5, ?_⟩
    · intro m hm; rw [a3.others m hm]; exact upd_other _ _ hm
    · rw [a3.fsm]; simp [World.setGen, upd_same]
    · intro hw
      rw [a6 (by simp [World.setGen, upd_same, hw])]
      simp [World.setGen, upd_same]

/-- the loop of `Search` of the factory; a match is found in `n` and nowhere else -/
theorem range_finishes (hf : c.floats.Lawful) (hn : [] ∉ c.names) (hcap : 0 < c.capacity) (n : Str) :
    ∀ (rest : List Str) (w : World F), Rest c sub w → w.searcher = .range rest →
    ∃ w1, Leads c w w1 ∧ Rest c sub w1 ∧ w1.current = w.current ∧ w1.searcher = .range [] ∧
      (∀ m, (w1.gens m).fsm = (w.gens m).fsm) ∧
      ((w.gens n).monitor = .waiting → (w1.gens n).monitor = .waiting ∧
        (w.gens n).matched + (if n ∈ rest ∧ n ≠ w.current ∧ (w.gens n).fsm = .ready then 1 else 0)
          ≤ (w1.gens n).matched) := by
  intro rest
  induction rest with
  | nil =>
    intro w h e
    exact ⟨w, Leads.refl w, h, rfl, e, fun _ => rfl, fun hw => ⟨hw, by simp⟩⟩
  | cons k rest ih =>
    intro w h e
    by_cases hk : k ≠ w.current ∧ (w.gens k).fsm = .ready
    · have hs := Leads.one (c := c) (w := w) (w' := { w with searcher := .call k (some rest) })
        .searchNext h.inv.ok (by simp only [step, e]; rw [if_pos hk])
      obtain ⟨w1, a1, a2, a3, a4, a5, a6⟩ := call_finishes hf hn hcap
        (w := { w with searcher := .call k (some rest) })
        ⟨h.inv.leads hf hn hs, h.listener, h.queue⟩ k (some rest) rfl (decide (k = n))
      obtain ⟨w2, b1, b2, b3, b4, b5, b6⟩ := ih w1 a2 a4
      have hfsm : ∀ m, (w1.gens m).fsm = (w.gens m).fsm := fun m => by
        by_cases em : m = k
        · subst em; exact a3.fsm
        · rw [a3.others m em]
      refine ⟨w2, (hs.trans a1).trans b1, b2, b3.trans a3.current, b4, fun m => (b5 m).trans (hfsm m), ?_⟩
      intro hw
      rw [hfsm, show w1.current = w.current from a3.current] at b6
      by_cases en : k = n
      · subst en
        obtain ⟨c1, c2⟩ := b6 a5
        refine ⟨c1, ?_⟩
        rw [a6 hw] at c2
        simp only [decide_true, Bool.toNat_true] at c2
        split
        · exact Nat.le_trans (Nat.le_add_right _ _) c2
        · exact Nat.le_trans (Nat.le_add_right _ 1) (Nat.le_trans (Nat.le_add_right _ _) c2)
      · have hg := a3.others n (Ne.symm en)
        rw [hg] at b6
        obtain ⟨c1, c2⟩ := b6 hw
        refine ⟨c1, Nat.le_trans (Nat.add_le_add_left ?_ _) c2⟩
        simp only [List.mem_cons, Ne.symm en, false_or]
        exact Nat.le_refl _
    · have hs := Leads.one (c := c) (w := w) (w' := { w with searcher := .range rest })
        .searchNext h.inv.ok (by simp only [step, e]; rw [if_neg hk])
      obtain ⟨w2, b1, b2, b3, b4, b5, b6⟩ := ih { w with searcher := .range rest }
        ⟨h.inv.leads hf hn hs, h.listener, h.queue⟩ rfl
      refine ⟨w2, hs.trans b1, b2, b3, b4, b5, ?_⟩
      intro hw
      obtain ⟨c1, c2⟩ := b6 hw
      refine ⟨c1, Nat.le_trans (Nat.add_le_add_left ?_ _) c2⟩
      by_cases en : n = k
      · subst en
        rw [if_neg (fun h => hk h.2)]
        exact Nat.zero_le _
      · simp only [List.mem_cons, en, false_or]
        exact Nat.le_refl _

/-- the last search, in the selected engine -/
theorem last_finishes (hf : c.floats.Lawful) (hn : [] ∉ c.names) (hcap : 0 < c.capacity) (n : Str)
    (h : Rest c sub w) (e : w.searcher = .range []) :
    ∃ w1, Leads c w w1 ∧ Rest c sub w1 ∧ w1.current = w.current ∧ w1.searcher = .idle ∧
      (∀ m, (w1.gens m).fsm = (w.gens m).fsm) ∧
      ((w.gens n).monitor = .waiting → (w1.gens n).monitor = .waiting ∧
        (w.gens n).matched + (if n = w.current then 1 else 0) ≤ (w1.gens n).matched) := by
  have hc := h.inv.searching (by rw [e]; simp)
  have hm := ((h.inv.gens _).ready (h.inv.current hc)).2
  have hs := Leads.one (c := c) (w := w) (w' := { w with searcher := .call w.current none })
    .searchNext h.inv.ok (by simp only [step, e]; rw [if_pos hm])
  obtain ⟨w1, a1, a2, a3, a4, a5, a6⟩ := call_finishes hf hn hcap
    (w := { w with searcher := .call w.current none })
    ⟨h.inv.leads hf hn hs, h.listener, h.queue⟩ w.current none rfl (decide (w.current = n))
  refine ⟨w1, hs.trans a1, a2, a3.current, a4, ?_, ?_⟩
  · intro m
    by_cases em : m = w.current
    · subst em; exact a3.fsm
    · rw [a3.others m em]
  · intro hw
    by_cases en : w.current = n
    · subst en
      refine ⟨a5, ?_⟩
      rw [a6 hw]; simp
    · rw [a3.others n (Ne.symm en)]
      exact ⟨hw, by simp [Ne.symm en]⟩

/-- a search that is under way can be completed -/
theorem search_finishes (hf : c.floats.Lawful) (hn : [] ∉ c.names) (hcap : 0 < c.capacity)
    (h : Rest c sub w) : ∃ w1, Leads c w w1 ∧ Rest c sub w1 ∧ w1.searcher = .idle ∧
      w1.current = w.current ∧ (∀ m, (w1.gens m).fsm = (w.gens m).fsm) := by
  have hrange : ∀ (rest : List Str) (v : World F), Rest c sub v → v.searcher = .range rest →
      ∃ w1, Leads c v w1 ∧ Rest c sub w1 ∧ w1.searcher = .idle ∧
      w1.current = v.current ∧ (∀ m, (w1.gens m).fsm = (v.gens m).fsm) := by
    intro rest v hv e
    obtain ⟨w1, a1, a2, a3, a4, a5, -⟩ := range_finishes hf hn hcap [] rest v hv e
    obtain ⟨w2, b1, b2, b3, b4, b5, -⟩ := last_finishes hf hn hcap [] a2 a4
    exact ⟨w2, a1.trans b1, b2, b4, b3.trans a3, fun m => (b5 m).trans (a5 m)⟩
  have hresume : ∀ (r : Option (List Str)) (v : World F), Rest c sub v → v.searcher = resume r →
      ∃ w1, Leads c v w1 ∧ Rest c sub w1 ∧ w1.searcher = .idle ∧
      w1.current = v.current ∧ (∀ m, (w1.gens m).fsm = (v.gens m).fsm) := by
    intro r v hv e
    cases r with
    | none => exact ⟨v, Leads.refl v, hv, e, rfl, fun _ => rfl⟩
    | some rest => exact hrange rest v hv e
  have around : ∀ (k : Str) (v v1 : World F), Around k v v1 → ∀ m, (v1.gens m).fsm = (v.gens m).fsm := by
    intro k v v1 ha m
    by_cases em : m = k
    · subst em; exact ha.fsm
    · rw [ha.others m em]
  have htrack : ∀ (k : Str) (r : Option (List Str)) (v : World F), Rest c sub v → v.searcher = .track k r →
      ∃ w1, Leads c v w1 ∧ Rest c sub w1 ∧ w1.searcher = .idle ∧
      w1.current = v.current ∧ (∀ m, (w1.gens m).fsm = (v.gens m).fsm) := by
    intro k r v hv e
    obtain ⟨w1, a1, a2, a3, a4, -⟩ := track_finishes hf hn hcap hv k r e
    obtain ⟨w2, b1, b2, b3, b4, b5⟩ := hresume r w1 a2 a4
    exact ⟨w2, a1.trans b1, b2, b3, b4.trans a3.current, fun m => (b5 m).trans (around k _ _ a3 m)⟩
  have hwrite : ∀ (k : Str) (r : Option (List Str)) (m : Nat) (v : World F), Rest c sub v →
      v.searcher = .writeMatched k r m →
      ∃ w1, Leads c v w1 ∧ Rest c sub w1 ∧ w1.searcher = .idle ∧
      w1.current = v.current ∧ (∀ m, (w1.gens m).fsm = (v.gens m).fsm) := by
    intro k r m v hv e
    have hs := Leads.one (c := c) (w := v) (w' := { v.setGen k { v.gens k with matched := m + 1 }
      with searcher := .track k r }) .writeMatched hv.inv.ok (by simp [step, e])
    obtain ⟨w1, a1, a2, a3, a4, a5⟩ := htrack k r _ ⟨hv.inv.leads hf hn hs, hv.listener, hv.queue⟩ rfl
    refine ⟨w1, hs.trans a1, a2, a3, a4, fun x => (a5 x).trans ?_⟩
    by_cases em : x = k
    · subst em; simp [World.setGen, upd_same]
    · simp [World.setGen, upd_other _ _ em]
  cases e : w.searcher with
  | idle => exact ⟨w, Leads.refl w, h, e, rfl, fun _ => rfl⟩
  | range rest => exact hrange rest w h e
  | call k r =>
    obtain ⟨w1, a1, a2, a3, a4, -⟩ := call_finishes hf hn hcap h k r e true
    obtain ⟨w2, b1, b2, b3, b4, b5⟩ := hresume r w1 a2 a4
    exact ⟨w2, a1.trans b1, b2, b3, b4.trans a3.current, fun m => (b5 m).trans (around k _ _ a3 m)⟩
  | readMatched k r =>
    have hs := Leads.one (c := c) (w := w) (w' := { w with searcher := .writeMatched k r (w.gens k).matched })
      .readMatched h.inv.ok (by simp [step, e])
    obtain ⟨w1, a1, a2, a3, a4, a5⟩ := hwrite k r _ _ ⟨h.inv.leads hf hn hs, h.listener, h.queue⟩ rfl
    exact ⟨w1, hs.trans a1, a2, a3, a4, a5⟩
  | writeMatched k r m => exact hwrite k r m w h e
  | track k r => exact htrack k r w h e

/-- one more match for a ready engine -/
theorem match_once (hf : c.floats.Lawful) (hn : [] ∉ c.names) (hcap : 0 < c.capacity) (n : Str)
    (h : Rest c sub w) (hs : w.searcher = .idle) (hc : w.current ≠ []) (hr : (w.gens n).fsm = .ready)
    (hw : (w.gens n).monitor = .waiting) :
    ∃ w1, MayLead c w w1 ∧ Rest c sub w1 ∧ w1.searcher = .idle ∧ w1.current = w.current ∧
      (w1.gens n).fsm = .ready ∧ (w1.gens n).monitor = .waiting ∧
      (w.gens n).matched + 1 ≤ (w1.gens n).matched := by
  have h0 := MayLead.one (c := c) (w := w) (w' := { w with searcher := .range c.names })
    (.search c.names) h.inv.ok (by simp [step, hs, isActive, hc, List.isPerm_iff])
  obtain ⟨w1, a1, a2, a3, a4, a5, a6⟩ := range_finishes hf hn hcap n c.names
    { w with searcher := .range c.names } ⟨h.inv.mayLead hf hn h0, h.listener, h.queue⟩ rfl
  obtain ⟨w2, b1, b2, b3, b4, b5, b6⟩ := last_finishes hf hn hcap n a2 a4
  obtain ⟨c1, c2⟩ := a6 hw
  obtain ⟨d1, d2⟩ := b6 c1
  refine ⟨w2, (h0.trans a1.may).trans b1.may, b2, b4, b3.trans a3, ((b5 n).trans (a5 n)).trans hr, d1, ?_⟩
  have hmem := ((h.inv.gens n).ready hr).2
  rw [a3] at d2
  simp only [hmem, hr, true_and, and_true] at c2
  by_cases en : n = w.current
  · rw [if_pos en] at d2
    exact Nat.le_trans (Nat.add_le_add_right (Nat.le_trans (Nat.le_add_right _ _) c2) 1) d2
  · rw [if_pos en] at c2
    exact Nat.le_trans (Nat.le_trans c2 (Nat.le_add_right _ _)) d2

theorem match_many (hf : c.floats.Lawful) (hn : [] ∉ c.names) (hcap : 0 < c.capacity) (n : Str) (k : Nat) :
    ∀ w : World F, Rest c sub w → w.searcher = .idle → w.current ≠ [] → (w.gens n).fsm = .ready →
    (w.gens n).monitor = .waiting →
    ∃ w1, MayLead c w w1 ∧ Rest c sub w1 ∧ w1.searcher = .idle ∧ w1.current ≠ [] ∧
      (w1.gens n).fsm = .ready ∧ (w1.gens n).monitor = .waiting ∧ k ≤ (w1.gens n).matched := by
  induction k with
  | zero =>
    intro w h hs hc hr hw
    exact ⟨w, MayLead.refl w, h, hs, hc, hr, hw, Nat.zero_le _⟩
  | succ k ih =>
    intro w h hs hc hr hw
    obtain ⟨w1, a1, a2, a3, a4, a5, a6, a7⟩ := ih w h hs hc hr hw
    obtain ⟨w2, b1, b2, b3, b4, b5, b6, b7⟩ := match_once hf hn hcap n a2 a3 a4 a5 a6
    exact ⟨w2, a1.trans b1, b2, b3, by rw [b4]; exact a4, b5, b6, by omega⟩

/-- a search can be brought into a ready engine -/
theorem enter_search (hf : c.floats.Lawful) (hn : [] ∉ c.names) (hcap : 0 < c.capacity) (n : Str)
    (h : Rest c sub w) (hs : w.searcher = .idle) (hc : w.current ≠ []) (hr : (w.gens n).fsm = .ready)
    (hw : (w.gens n).monitor = .waiting) :
    ∃ w1 r, MayLead c w w1 ∧ Rest c sub w1 ∧ w1.searcher = .call n r ∧
      (w1.gens n).monitor = .waiting ∧ (w.gens n).matched ≤ (w1.gens n).matched := by
  have hmem := ((h.inv.gens n).ready hr).2
  by_cases en : n = w.current
  · have h0 := MayLead.one (c := c) (w := w) (w' := { w with searcher := .range c.names })
      (.search c.names) h.inv.ok (by simp [step, hs, isActive, hc, List.isPerm_iff])
    obtain ⟨w1, a1, a2, a3, a4, a5, a6⟩ := range_finishes hf hn hcap n c.names
      { w with searcher := .range c.names } ⟨h.inv.mayLead hf hn h0, h.listener, h.queue⟩ rfl
    have hm : w1.current ∈ c.names := by rw [a3]; exact en ▸ hmem
    have h1 := (h0.trans a1.may).trans (MayLead.one (c := c) (w := w1) (w' := { w1 with searcher := .call w1.current none })
      .searchNext a2.inv.ok (by simp only [step, a4]; rw [if_pos hm]))
    obtain ⟨c1, c2⟩ := a6 hw
    refine ⟨_, none, h1, ⟨h.inv.mayLead hf hn h1, a2.listener, a2.queue⟩, ?_, c1,
      Nat.le_trans (Nat.le_add_right _ _) c2⟩
    show Searcher.call w1.current none = _
    rw [a3, en]
  · have hp : (n :: c.names.erase n).isPerm c.names = true :=
      List.isPerm_iff.mpr (List.perm_cons_erase hmem).symm
    have h0 := MayLead.one (c := c) (w := w) (w' := { w with searcher := .range (n :: c.names.erase n) })
      (.search (n :: c.names.erase n)) h.inv.ok (by simp only [step, hs]; simp [isActive, hc, hp])
    have h1 := h0.trans (MayLead.one (c := c) (w' := { w with searcher := .call n (some (c.names.erase n)) })
      .searchNext h.inv.ok (by simp only [step]; rw [if_pos ⟨en, hr⟩]))
    exact ⟨_, _, h1, ⟨h.inv.mayLead hf hn h1, h.listener, h.queue⟩, rfl, hw, Nat.le_refl _⟩

/-- a tick in the middle of a search leaves a report of matches without events -/
theorem stale_report (hf : c.floats.Lawful) (hn : [] ∉ c.names) (hcap : 0 < c.capacity) (n : Str) (k : Nat)
    (h : Rest c sub w) (hs : w.searcher = .idle) (hc : w.current ≠ []) (hr : (w.gens n).fsm = .ready)
    (hw : (w.gens n).monitor = .waiting) :
    ∃ w1 m, MayLead c w w1 ∧ k ≤ m ∧ Msg.traffic n 0 m ∈ w1.sent := by
  obtain ⟨w1, a1, a2, a3, a4, a5, a6, a7⟩ := match_many hf hn hcap n k w h hs hc hr hw
  obtain ⟨w2, r, b1, b2, b3, b4, b5⟩ := enter_search hf hn hcap n a2 a3 a4 a5 a6
  have hrdy : (w2.gens n).fsm = .ready := by have := b2.inv.searcher; rw [b3] at this; exact this
  obtain ⟨he, hmem⟩ := (b2.inv.gens n).ready hrdy
  -- the engine has found something, the counter has been read
  have d1 := (a1.trans b1).trans (MayLead.one (c := c) (w := w2) (w' := { w2 with
      searcher := .readMatched n r, hits := upd w2.hits n (w2.hits n + 1) })
      (.engineSearch true) b2.inv.ok (by simp [step, b3, he]))
  have d2 := d1.trans (MayLead.one (c := c) (w' := { w2 with
      searcher := .writeMatched n r (w2.gens n).matched, hits := upd w2.hits n (w2.hits n + 1) })
      .readMatched b2.inv.ok (by simp [step]))
  -- the ticker
  have d3 := d2.trans (MayLead.one (c := c) (w' := { w2.setGen n { w2.gens n with
      monitor := .sendTraffic (w2.gens n).events (w2.gens n).matched } with
      searcher := .writeMatched n r (w2.gens n).matched, hits := upd w2.hits n (w2.hits n + 1) }) (.genTick n) b2.inv.ok
      (by simp [step, b4, hmem, World.setGen]))
  obtain ⟨w3, e1, e2, e3, e4, e5, e6⟩ := monitor_traffic hf hn hcap
    ⟨h.inv.mayLead hf hn d3, b2.listener, b2.queue⟩ n (w2.gens n).events (w2.gens n).matched
    (by simp [World.setGen, upd_same])
  have hsr : w3.searcher = .writeMatched n r (w2.gens n).matched := e3.searcher
  -- the old value comes back
  have d4 := (d3.trans e1.may).trans (MayLead.one (c := c) (w := w3) (w' := { w3.setGen n { w3.gens n with
      matched := (w2.gens n).matched + 1 } with searcher := .track n r }) .writeMatched e2.inv.ok
      (by simp [step, hsr]))
  -- the next tick comes before the event is counted
  have d5 := d4.trans (MayLead.one (c := c) (w' := { w3.setGen n { w3.gens n with
      matched := (w2.gens n).matched + 1, monitor := .sendTraffic 0 ((w2.gens n).matched + 1) } with
      searcher := .track n r }) (.genTick n) e2.inv.ok
      (by simp only [step, World.setGen, upd_same, e4, if_pos hmem, e5]
          congr 2
          funext x
          simp only [upd]
          split <;> rfl))
  have hl : w3.listener = .idle := e2.listener
  have d6 := d5.trans (MayLead.one (c := c) (w' := { w3.setGen n { w3.gens n with
      matched := (w2.gens n).matched + 1, monitor := .compute,
      batches := (w3.gens n).batches ++ [(w3.gens n).batch] } with
      searcher := .track n r, listener := .send (.traffic n 0 ((w2.gens n).matched + 1)),
      sent := w3.sent ++ [.traffic n 0 ((w2.gens n).matched + 1)] }) (.recvTraffic n) e2.inv.ok
      (by simp only [step, World.setGen, upd_same, hl]
          congr 2
          funext x
          simp only [upd]
          split <;> rfl))
  exact ⟨_, _, d6, Nat.le_trans (Nat.le_trans a7 b5) (Nat.le_add_right _ 1), by simp⟩

end World
end Gosstrak
