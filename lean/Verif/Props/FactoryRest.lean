import Verif.Proofs.FactoryRest
import Verif.Props.Factory

/-!
C83: left alone, the program comes to rest, unless the listener starves the others. An execution is on
its own when it contains no tick, no new search and no message from outside.
-/
namespace Gosstrak
open World
variable {F : Type} {c : Config F} {sub : Subs} {w w' : World F}

/-- C83: a program left alone cannot move exactly when everything is done: all engines built, all
    reports handed over, the search completed. -/
theorem C83_rest (hf : c.floats.Lawful) (hn : [] ∉ c.names) (hcap : 0 < c.capacity) (h : Reaches c sub w) :
    (∀ l : Label, l.Own → step c w l = none) ↔ AtRest c w :=
  ⟨rest_of_stuck hf hn hcap h, stuck_of_rest hf hn h⟩

/-- C83: in executions on its own the number of moves other than those of the listener, on its own or
    reading from the main channel, is bounded. -/
theorem C83_bounded (hf : c.floats.Lawful) (hn : [] ∉ c.names) (h : Reaches c sub w) :
    ∃ N, ∀ (ls : List Label) (w' : World F), (∀ l ∈ ls, l.Own) → run c w ls = some w' →
      (ls.filter fun l => decide (l ≠ .recvMain ∧ l ≠ .listener)).length ≤ N := by
  refine ⟨left c w, fun ls w' ho hr => ?_⟩
  have h1 := left_run hf hn ls w w' h ho hr
  have h2 : (ls.filter fun l => decide (l ≠ .recvMain ∧ l ≠ .listener)).length = (ls.map Label.rest).sum := by
    clear h1 hr ho
    induction ls with
    | nil => rfl
    | cons l ls ih =>
      rw [List.filter_cons]
      cases l <;> simp [Label.rest] at ih ⊢ <;> omega
  omega

/-- C83: so in an endless execution on its own, from some moment on only the listener moves, and again
    and again it takes a message from the main channel that the main program could take. -/
theorem C83_endless (hf : c.floats.Lawful) (hn : [] ∉ c.names) (s : Nat → World F) (l : Nat → Label)
    (he : Endless c s l) (h : Reaches c sub (s 0)) (ho : ∀ i, (l i).Own) :
    (∃ i, ∀ j, i ≤ j → l j = .recvMain ∨ l j = .listener) ∧
      ∀ i, ∃ j, i ≤ j ∧ l j = .recvMain ∧ (s j).queue ≠ [] := by
  have hr : ∀ i, Reaches c sub (s i) := by
    intro i
    induction i with
    | zero => exact h
    | succ i ih => exact reaches_step ih (he.alive i) (he.moves i)
  have hst : ∀ i, left c (s (i + 1)) + Label.rest (l i) ≤ left c (s i) := fun i =>
    left_step (Inv.reaches hf hn (hr i)) (Aux.reaches (hr i)) (he.alive (i + 1)) (ho i) (he.moves i)
  -- a minimum of the measure
  obtain ⟨i, hmin⟩ : ∃ i, ∀ j, left c (s i) ≤ left c (s j) := by
    classical
    have hex : ∃ v, ∃ i, left c (s i) = v := ⟨_, 0, rfl⟩
    obtain ⟨i, hi⟩ := Nat.find_spec hex
    exact ⟨i, fun j => by rw [hi]; exact Nat.find_min' hex ⟨j, rfl⟩⟩
  have hmono : ∀ k, left c (s (i + k)) ≤ left c (s i) := by
    intro k
    induction k with
    | zero => exact Nat.le_refl _
    | succ k ih => have := hst (i + k); rw [Nat.add_assoc] at this; omega
  have hlate : ∀ j, i ≤ j → l j = .recvMain ∨ l j = .listener := by
    intro j hj
    obtain ⟨k, rfl⟩ := Nat.exists_eq_add_of_le hj
    have h1 := hst (i + k)
    have h2 := hmin (i + k + 1)
    have h3 := hmono k
    have : Label.rest (l (i + k)) = 0 := by omega
    cases e : l (i + k) <;> simp [e, Label.rest] at this <;> simp
  refine ⟨⟨i, hlate⟩, ?_⟩
  intro j
  refine Classical.byContradiction fun hno => ?_
  have hq : ∀ k, l k = .recvMain → (s k).queue ≠ [] := by
    intro k hk e
    have := he.moves k
    rw [hk] at this
    simp only [step, e] at this
    split at this <;> simp_all
  have hall : ∀ k, max i j ≤ k → l k = .listener := by
    intro k hk
    rcases hlate k (by omega) with e | e
    · exact absurd ⟨k, by omega, e, hq k e⟩ hno
    · exact e
  have hdec : ∀ k, Listener.steps (s (max i j + k)).listener + k ≤ Listener.steps (s (max i j)).listener := by
    intro k
    induction k with
    | zero => simp
    | succ k ih =>
      have h1 := he.moves (max i j + k)
      rw [hall _ (by omega)] at h1
      have := steps_listener (he.alive (max i j + k + 1)) h1
      rw [show max i j + (k + 1) = max i j + k + 1 from rfl]
      omega
  have := hdec (Listener.steps (s (max i j)).listener + 1)
  omega

/-- C83: hence the program left alone comes to rest if the main program, when there is again and again
    a message in its channel, again and again takes one. -/
theorem C83_fair (hf : c.floats.Lawful) (hn : [] ∉ c.names) (s : Nat → World F) (l : Nat → Label)
    (h : Reaches c sub (s 0)) (ho : ∀ i, (l i).Own)
    (hfair : (∀ i, ∃ j, i ≤ j ∧ (s j).queue ≠ []) → ∀ i, ∃ j, i ≤ j ∧ l j = .mainRecv) : ¬ Endless c s l := by
  intro he
  obtain ⟨⟨i, h1⟩, h2⟩ := C83_endless hf hn s l he h ho
  obtain ⟨j, hj, e⟩ := hfair (fun i => (h2 i).imp fun j hj => ⟨hj.1, hj.2.2⟩) i
  rcases h1 j hj with e' | e' <;> rw [e] at e' <;> cases e'

/-- C83: and from every state there is a way to rest. -/
theorem C83_reaches_rest (hf : c.floats.Lawful) (hn : [] ∉ c.names) (hcap : 0 < c.capacity)
    (h : Reaches c sub w) :
    ∃ ls w', (∀ l ∈ ls, l.Own) ∧ run c w ls = some w' ∧ AtRest c w' := by
  suffices H : ∀ (k : Nat) (w : World F), 6 * left c w + Listener.steps w.listener ≤ k → Reaches c sub w →
      ∃ ls w', (∀ l ∈ ls, l.Own) ∧ run c w ls = some w' ∧ AtRest c w' from H _ w (Nat.le_refl _) h
  have hbound : ∀ x : Listener F, Listener.steps x ≤ 5 := by
    intro x
    cases x <;> simp [Listener.steps]
  intro k
  induction k with
  | zero =>
    intro w hk h
    refine ⟨[], w, by simp, rfl, (C83_rest hf hn hcap h).mp fun l ho => ?_⟩
    refine Option.eq_none_iff_forall_ne_some.mpr fun u hs => ?_
    have hi := Inv.reaches hf hn h
    have h1 := left_step hi (Aux.reaches h) (hi.step hf hn hs).ok ho hs
    have hle : Label.rest l = 0 := by omega
    have hq : w.queue.length = 0 := by have : left c w = 0 := by omega
                                       unfold left at this; omega
    have hl : Listener.steps w.listener = 0 := by omega
    cases l <;> simp [Label.rest] at hle
    · have : w.queue = [] := List.eq_nil_of_length_eq_zero hq
      simp only [step, this] at hs
      split at hs <;> simp_all
    · have := steps_listener (hi.step hf hn hs).ok hs
      omega
  | succ k ih =>
    intro w hk h
    have hi := Inv.reaches hf hn h
    by_cases hr : AtRest c w
    · exact ⟨[], w, by simp, rfl, hr⟩
    have go : ∀ (l : Label) (u : World F), l.Own → step c w l = some u →
        6 * left c u + Listener.steps u.listener ≤ k →
        ∃ ls w', (∀ l ∈ ls, l.Own) ∧ run c w ls = some w' ∧ AtRest c w' := by
      intro l u ho hs hu
      obtain ⟨ls, w', a1, a2, a3⟩ := ih u hu (reaches_step h hi.ok hs)
      refine ⟨l :: ls, w', ?_, by simp [run, hi.ok, hs, a2], a3⟩
      intro m hm
      rcases List.mem_cons.mp hm with rfl | hm
      · exact ho
      · exact a1 m hm
    have small : ∀ (l : Label) (u : World F), l.Own → step c w l = some u → Label.rest l = 1 →
        ∃ ls w', (∀ l ∈ ls, l.Own) ∧ run c w ls = some w' ∧ AtRest c w' := by
      intro l u ho hs h1
      have h2 := left_step hi (Aux.reaches h) (hi.step hf hn hs).ok ho hs
      have h3 := hbound u.listener
      exact go l u ho hs (by omega)
    by_cases hq : w.queue = []
    · by_cases hl : w.listener = .idle
      · have hex : ¬ ∀ l : Label, l.Own → step c w l = none := fun hno => hr ((C83_rest hf hn hcap h).mp hno)
        obtain ⟨l, hl'⟩ := Classical.not_forall.mp hex
        obtain ⟨ho, hs⟩ := Classical.not_imp.mp hl'
        obtain ⟨u, hs⟩ := Option.ne_none_iff_exists'.mp hs
        refine small l u ho hs ?_
        cases l <;> first | rfl | skip
        · simp [step, hl, hq] at hs
        · simp [step, listenerStep, hl] at hs
      · have hs : ∃ u, step c w .listener = some u := by
          simp only [step, listenerStep]
          cases e : w.listener with
          | idle => exact absurd e hl
          | generated n => dsimp only; split
                           · exact ⟨_, rfl⟩
                           · split <;> exact ⟨_, rfl⟩
          | compare n => dsimp only; split <;> exact ⟨_, rfl⟩
          | setCurrent n => exact ⟨_, rfl⟩
          | evalSelected => exact ⟨_, rfl⟩
          | store n v => exact ⟨_, rfl⟩
          | send m => simp [push, hq, hcap]
        obtain ⟨u, hs⟩ := hs
        have h1 := left_step hi (Aux.reaches h) (hi.step hf hn hs).ok (Or.inl rfl) hs
        have h2 := steps_listener (hi.step hf hn hs).ok hs
        exact go .listener u (Or.inl rfl) hs (by omega)
    · obtain ⟨m, q, e⟩ := List.exists_cons_of_ne_nil hq
      exact small .mainRecv { w with queue := q, seen := w.seen ++ [m] } (Or.inl rfl) (by simp [step, e]) rfl

/-- C83, the code: without that the listener can go on forever with a single report that it takes from
    the channel and puts back, and nobody else moves. -/
theorem C83_livelock (hcap : 0 < c.capacity) (hw : w.crashed = false) (hl : w.listener = .idle)
    (n : Str) (e m : Nat) (hq : w.queue = [.traffic n e m]) :
    ∃ (s : Nat → World F) (l : Nat → Label), s 0 = w ∧ Endless c s l ∧ (∀ i, (l i).Own) ∧
      ∀ i, (s i).searcher = w.searcher ∧ (s i).gens = w.gens ∧ (s i).seen = w.seen := by
  have h0 : ∀ i : Nat, i % 2 = 0 ∨ i % 2 = 1 := fun i => by omega
  refine ⟨fun i => if i % 2 = 0 then w else { w with queue := [], listener := .send (.traffic n e m) },
    fun i => if i % 2 = 0 then .recvMain else .listener, by simp, ⟨?_, ?_⟩, ?_, ?_⟩
  · intro i
    rcases h0 i with h | h <;> simp [h, hw]
  · intro i
    rcases h0 i with h | h
    · have h' : (i + 1) % 2 = 1 := by omega
      simp [h, h', step, hl, hq]
    · have h' : (i + 1) % 2 = 0 := by omega
      simp only [h, h', step, listenerStep, push, List.length_nil, hcap, if_true, Nat.one_ne_zero, if_false,
        List.nil_append, Option.map_some, Option.some.injEq]
      cases w
      simp_all
  · intro i
    rcases h0 i with h | h <;> simp [h, Label.Own, Label.internal]
  · intro i
    rcases h0 i with h | h <;> simp [h]

/-- the list engine is selected, a first report is in the main channel, a search waits for the counter,
    and the counter for the listener to take the second report -/
def starving : List Label :=
  let n := "List".toList
  listReady ++ [.genTick n, .recvTraffic n, .listener, .genCompute n, .genReset n, .search codeNames, .searchNext,
    .searchNext, .searchNext, .searchNext, .searchNext, .engineSearch false, .genTick n]

/-- C83, the code: so a search can be kept waiting forever. -/
theorem C83_starved : ∃ (w : World (Nat × Nat)) (s : Nat → World (Nat × Nat)) (l : Nat → Label),
    Reaches exactCode [] w ∧ w.searcher = .track "List".toList none ∧ s 0 = w ∧ Endless exactCode s l ∧
      (∀ i, (l i).Own) ∧ ∀ i, (s i).searcher = .track "List".toList none := by
  have h : ((run exactCode (start exactCode []) starving).map fun w =>
      (w.listener, w.searcher, w.queue, w.crashed)) =
      some (.idle, .track "List".toList none, [.traffic "List".toList 0 0], false) := by decide +kernel
  obtain ⟨w, hw, he⟩ := Option.map_eq_some_iff.mp h
  simp only [Prod.mk.injEq] at he
  obtain ⟨s, l, a1, a2, a3, a4⟩ := C83_livelock (c := exactCode) (w := w) (by decide) he.2.2.2 he.1 _ _ _ he.2.2.1
  exact ⟨w, s, l, ⟨starving, hw⟩, he.2.1, a1, a2, a3, fun i => by rw [(a4 i).1, he.2.1]⟩

/-- C83: the start of the program: without clock and searches, whatever the order of the moves, when no
    more is possible all four engines are ready and the Patricia trie is selected. -/
theorem C83_startup {fl : Floats F} (hf : fl.Lawful) (ls : List Label) (ho : ∀ l ∈ ls, l.Own)
    (hr : run (Config.code fl) (start (Config.code fl) sub) ls = some w)
    (hend : ∀ l : Label, l.Own → step (Config.code fl) w l = none) :
    w.current = "PatriciaTrie".toList ∧ ∀ n ∈ codeNames, Usable (Config.code fl) sub w n := by
  have h : Reaches (Config.code fl) sub w := ⟨ls, hr⟩
  have hrest := (C83_rest (c := Config.code fl) hf (code_names fl) (show 0 < 128 by decide) h).mp hend
  have hsent := own_silent ho hr (fun n => rfl) rfl
  refine ⟨C55_trie hf h (by simp [hsent]) hrest.built hrest.listener, fun n hn => ?_⟩
  have hready := done_ready h n (Or.inr (hrest.built n hn))
  exact ⟨hn, hready, (((Inv.reaches (c := Config.code fl) hf (code_names fl) h).gens n).ready hready).1⟩

/-- for instance -/
example : ∃ w, run exactCode (start exactCode []) allReady = some w ∧ AtRest exactCode w := by
  have h : ((run exactCode (start exactCode []) allReady).map fun w =>
      decide (w.listener = .idle) && decide (w.selector = .idle) && decide (w.searcher = .idle) &&
        decide (w.queue = []) && exactCode.names.all fun n =>
          decide ((w.gens n).builder = .done) && decide ((w.gens n).monitor = .waiting)) = some true := by
    decide +kernel
  obtain ⟨w, hw, he⟩ := Option.map_eq_some_iff.mp h
  simp only [Bool.and_eq_true, decide_eq_true_eq, List.all_eq_true] at he
  exact ⟨w, hw, he.1.1.1.1, he.1.1.1.2, he.1.1.2, he.1.2, fun n hn => (he.2 n hn).1, fun n hn => (he.2 n hn).2⟩

end Gosstrak
