import Verif.Proofs.Watched

/-! How a write that does not return brings the program to a stop. -/
namespace Gosstrak
namespace Watched
variable {F : Type} {c : Config F} {sub : Subs} {percent : Percent F} {accept : Point F → Bool} {enabled : Bool}
  {s s' : Watched F} {l : WatchLabel} {n0 : Str} {q k : Nat}

theorem upd_upd {α : Type} (f : Str → α) (n : Str) (a b : α) : upd (upd f n a) n b = upd f n b := by
  funext m
  unfold upd
  split <;> rfl

/-- a write is under way, a message is in hand; a search waits for a generator, the selector for room; the
    listener is free -/
structure Jam (c : Config F) (n0 : Str) (q k : Nat) (s : Watched F) : Prop where
  alive : s.world.crashed = false
  on : s.stat.dead = false
  writing : s.writing = true
  held : s.holding.isSome = true
  selector : ∃ m, s.world.selector = .send m
  searcher : ∃ n r, n ∈ c.names ∧ s.world.searcher = .track n r
  gens : ∀ n ∈ c.names, (s.world.gens n).monitor = .waiting ∧ (s.world.gens n).builder = .done
  writes : s.stat.writes = []
  sent : s.world.sent.length = k
  listener : s.world.listener = .idle
  rest : (s.world.gens n0).events = 0 ∧ (s.world.gens n0).totalTime = 0
  queue : s.world.queue.length = q

/-- the generator after an interval without events -/
def idleGen (g : Gen F) : Gen F :=
  { g with monitor := .waiting, events := 0, matched := 0, totalTime := 0, batches := g.batches ++ [g.batch], batch := [] }

/-- one report more in the main channel -/
theorem jam_round (hf : c.floats.isNaN (c.floats.div 0 0) = true) (hn : n0 ∈ c.names) (h : Jam c n0 q k s)
    (hq : q < c.capacity) : ∃ ls s', run c percent accept enabled s ls = some s' ∧ Jam c n0 (q + 1) (k + 1) s' := by
  obtain ⟨h1, h2, h3, h4, h5, h6, h7, h8, h9, h10, ⟨h11, h12⟩, h13⟩ := h
  have hw := (h7 n0 hn).1
  let m : Msg F := .traffic n0 (s.world.gens n0).events (s.world.gens n0).matched
  refine ⟨[.world (.genTick n0), .world (.recvTraffic n0), .world .listener, .world (.genCompute n0),
      .world (.genReset n0)],
    { s with world := { s.world.setGen n0 (idleGen (s.world.gens n0)) with
      queue := s.world.queue ++ [m], sent := s.world.sent ++ [m] } }, ?_, ?_⟩
  · have hq' : s.world.queue.length < c.capacity := by omega
    simp [run, step, World.step, World.setGen, World.listenerStep, World.push, h1, h2, hw, hn, h10, upd_upd,
      World.upd_same, hq', h11, h12, hf, idleGen, m]
  · refine ⟨h1, h2, h3, h4, h5, h6, fun n hm => ?_, h8, by simp [h9], h10, by simp [World.setGen, World.upd_same, idleGen], by simp [h13]⟩
    by_cases e : n = n0
    · subst e
      simp only [World.setGen, World.upd_same, idleGen]
      exact ⟨trivial, (h7 n hm).2⟩
    · simp only [World.setGen, World.upd_other _ _ e]
      exact h7 n hm

theorem jam_fills (hf : c.floats.isNaN (c.floats.div 0 0) = true) (hn : n0 ∈ c.names) : ∀ (d q k : Nat)
    (s : Watched F), Jam c n0 q k s → q + d ≤ c.capacity →
    ∃ ls s', run c percent accept enabled s ls = some s' ∧ Jam c n0 (q + d) (k + d) s'
  | 0, _, _, s, h, _ => ⟨[], s, rfl, h⟩
  | d + 1, q, k, s, h, hq => by
    obtain ⟨ls, s1, h1, h2⟩ := jam_round (percent := percent) (accept := accept) (enabled := enabled) hf hn h (by omega)
    obtain ⟨ks, s2, h3, h4⟩ := jam_fills hf hn d (q + 1) (k + 1) s1 h2 (by omega)
    exact ⟨ls ++ ks, s2, run_append _ _ _ _ _ h1 h3, by
      rw [show q + (d + 1) = q + 1 + d by omega, show k + (d + 1) = k + 1 + d by omega]; exact h4⟩

/-- everybody waits -/
structure Locked (c : Config F) (k : Nat) (s : Watched F) : Prop where
  alive : s.world.crashed = false
  on : s.stat.dead = false
  writing : s.writing = true
  held : s.holding.isSome = true
  selector : ∃ m, s.world.selector = .send m
  searcher : ∃ n r, n ∈ c.names ∧ s.world.searcher = .track n r
  gens : ∀ n ∈ c.names, (s.world.gens n).monitor ≠ .waiting ∧ (s.world.gens n).monitor ≠ .compute ∧
    (s.world.gens n).monitor ≠ .reset ∧ (s.world.gens n).builder = .done
  writes : s.stat.writes = []
  sent : s.world.sent.length = k
  listener : ∃ m, s.world.listener = .send m
  queue : s.world.queue.length = c.capacity

/-- the generators notice their tickers one after the other -/
theorem ticks_lock : ∀ (ns : List Str) (s : Watched F), ns.Nodup → (∀ n ∈ ns, n ∈ c.names) →
    s.world.crashed = false → s.stat.dead = false → (∀ n ∈ ns, (s.world.gens n).monitor = .waiting) →
    ∃ s', run c percent accept enabled s (ns.map fun n => .world (.genTick n)) = some s' ∧
      (∃ g, s' = { s with world := { s.world with gens := g } }) ∧
      (∀ n, (s'.world.gens n).builder = (s.world.gens n).builder) ∧
      (∀ n, n ∉ ns → s'.world.gens n = s.world.gens n) ∧
      ∀ n ∈ ns, ∃ a b, (s'.world.gens n).monitor = .sendTraffic a b
  | [], s, _, _, _, _, _ => ⟨s, rfl, ⟨_, rfl⟩, fun _ => rfl, fun _ _ => rfl, nofun⟩
  | n :: ns, s, hd, hn, h1, h2, hw => by
    obtain ⟨hd1, hd2⟩ := List.nodup_cons.mp hd
    let g := s.world.gens n
    let s1 : Watched F := { s with world := s.world.setGen n { g with monitor := .sendTraffic g.events g.matched } }
    have hs1 : ∀ m, m ≠ n → s1.world.gens m = s.world.gens m := fun m hm => World.upd_other _ _ hm
    have hs2 : s1.world.gens n = { g with monitor := .sendTraffic g.events g.matched } := World.upd_same ..
    obtain ⟨s2, r, ⟨g2, e⟩, b1, b2, b3⟩ := ticks_lock ns s1 hd2 (fun n hm => hn n (List.mem_cons_of_mem _ hm)) h1 h2
      (fun m hm => by rw [hs1 m (fun e => hd1 (e ▸ hm))]; exact hw m (List.mem_cons_of_mem _ hm))
    refine ⟨s2, ?_, ⟨g2, e⟩, fun m => ?_, fun m hm => ?_, fun m hm => ?_⟩
    · have : step c percent accept enabled s (.world (.genTick n)) = some s1 := by
        simp [step, World.step, hw n List.mem_cons_self, hn n List.mem_cons_self, World.setGen, s1, g]
      simp only [List.map_cons, run, h1, h2, Bool.false_eq_true, or_self, if_false, this, Option.bind_some]
      exact r
    · rw [b1]
      by_cases e : m = n
      · subst e; rw [hs2]
      · rw [hs1 m e]
    · obtain ⟨a1, a2⟩ := not_or.mp (fun h => hm (List.mem_cons.mpr h))
      rw [b2 m a2, hs1 m a1]
    · rcases List.mem_cons.mp hm with rfl | hm
      · rw [b2 m hd1, hs2]
        exact ⟨_, _, rfl⟩
      · exact b3 m hm

theorem jam_locks (hf : c.floats.isNaN (c.floats.div 0 0) = true) (hn : n0 ∈ c.names) (hd : c.names.Nodup)
    (h : Jam c n0 c.capacity k s) :
    ∃ ls s', run c percent accept enabled s ls = some s' ∧ Locked c (k + 1) s' := by
  obtain ⟨h1, h2, h3, h4, h5, h6, h7, h8, h9, h10, ⟨h11, h12⟩, h13⟩ := h
  have hw := (h7 n0 hn).1
  let m : Msg F := .traffic n0 (s.world.gens n0).events (s.world.gens n0).matched
  let s1 : Watched F := { s with world := { s.world.setGen n0 (idleGen (s.world.gens n0)) with
      listener := .send m, sent := s.world.sent ++ [m] } }
  have r1 : run c percent accept enabled s [.world (.genTick n0), .world (.recvTraffic n0), .world (.genCompute n0),
      .world (.genReset n0)] = some s1 := by
    simp [run, step, World.step, World.setGen, h1, h2, hw, hn, h10, upd_upd,
      World.upd_same, h11, h12, hf, idleGen, m, s1]
  have g1 : ∀ n ∈ c.names, (s1.world.gens n).monitor = .waiting ∧ (s1.world.gens n).builder = .done := by
    intro n hm
    by_cases e : n = n0
    · subst e
      simp only [s1, World.setGen, World.upd_same, idleGen]
      exact ⟨trivial, (h7 n hm).2⟩
    · simp only [s1, World.setGen, World.upd_other _ _ e]
      exact h7 n hm
  obtain ⟨s2, r2, ⟨g, e⟩, b1, -, b3⟩ := ticks_lock (percent := percent) (accept := accept) (enabled := enabled)
    c.names s1 hd (fun _ h => h) h1 h2 (fun n hm => (g1 n hm).1)
  refine ⟨_, s2, run_append _ _ _ _ _ r1 r2, ?_⟩
  have hg : ∀ n ∈ c.names, (s2.world.gens n).monitor ≠ .waiting ∧ (s2.world.gens n).monitor ≠ .compute ∧
    (s2.world.gens n).monitor ≠ .reset ∧ (s2.world.gens n).builder = .done := by
    intro n hm
    obtain ⟨a, b, e⟩ := b3 n hm
    rw [e, b1]
    exact ⟨nofun, nofun, nofun, (g1 n hm).2⟩
  subst e
  exact ⟨h1, h2, h3, h4, h5, h6, hg, h8, by simp [s1, h9], ⟨m, rfl⟩, h13⟩

/-- then only the database can move -/
theorem locked_stuck (hf : c.floats.Lawful) (hn : [] ∉ c.names) (hr : Reaches c percent accept enabled sub s)
    (h : Locked c k s) (hs : step c percent accept enabled s l ≠ none) : l.Answer := by
  have hi := World.Inv.reaches hf hn (world_reaches hr)
  have ha := World.Aux.reaches (world_reaches hr)
  obtain ⟨h1, h2, h3, h4, ⟨m, h5⟩, ⟨n1, r, h6, h6'⟩, h7, h8, h9, ⟨m', h10⟩, h11⟩ := h
  obtain ⟨x, hx⟩ := Option.isSome_iff_exists.mp h4
  have hpush : ∀ m, World.push c s.world m = none := by
    intro m
    unfold World.push
    rw [if_neg (by omega)]
  cases l with
  | written => exact .inl rfl
  | refused => exact .inr rfl
  | take => simp [step, hx] at hs
  | hand => simp [step, hx, h3] at hs
  | world l =>
    exfalso
    apply hs
    simp only [step]
    split
    · rfl
    rename_i hl
    suffices World.step c s.world l = none by rw [this]; rfl
    have hmon : ∀ n, (s.world.gens n).monitor ≠ .compute ∧ (s.world.gens n).monitor ≠ .reset := by
      intro n
      by_cases hm : n ∈ c.names
      · exact ⟨(h7 n hm).2.1, (h7 n hm).2.2.1⟩
      · have : (s.world.gens n).monitor = .waiting :=
          Classical.byContradiction fun e => hm ((ha n).1 e)
        rw [this]; exact ⟨nofun, nofun⟩
    have hb : ∀ n, (s.world.gens n).builder = .off ∨ (s.world.gens n).builder = .done := by
      intro n
      by_cases hm : n ∈ c.names
      · exact Or.inr (h7 n hm).2.2.2
      cases e : (s.world.gens n).builder with
      | off => exact Or.inl rfl
      | building s => exact absurd ((hi.gens n).building s e).2.2 hm
      | deploying => exact absurd ((hi.gens n).deploying e).2.2 hm
      | announcing => exact absurd ((hi.gens n).ready ((hi.gens n).announcing e)).2 hm
      | done => exact Or.inr rfl
    cases l with
    | init n =>
      simp only [World.step]
      rw [if_neg]
      rintro ⟨a1, a2⟩
      have := (hi.gens n).unavailable a2
      rw [(h7 n a1).2.2.2] at this
      cases this
    | build n => rcases hb n with e | e <;> simp [World.step, e]
    | deploy n => rcases hb n with e | e <;> simp [World.step, e]
    | genTick n =>
      simp only [World.step]
      split
      · rename_i e
        rw [if_neg fun hm => (h7 n hm).1 e]
      · rfl
    | genCompute n =>
      simp only [World.step]
      split
      · rename_i e; exact absurd e (hmon n).1
      · rfl
    | genReset n =>
      simp only [World.step]
      split
      · rename_i e; exact absurd e (hmon n).2
      · rfl
    | recvGenerated n => simp [World.step, h10]
    | recvTraffic n => simp [World.step, h10]
    | recvStatus n => simp [World.step, h10]
    | recvMain => simp [World.step, h10]
    | listener => simp [World.step, World.listenerStep, h10, hpush]
    | tick o => simp [World.step, h5]
    | selector => simp [World.step, World.selectorStep, h5, hpush]
    | search o => simp [World.step, h6']
    | searchNext => simp [World.step, h6']
    | engineSearch f => simp [World.step, h6']
    | readMatched => simp [World.step, h6']
    | writeMatched => simp [World.step, h6']
    | track t =>
      simp only [World.step, h6']
      split
      · rename_i e; exact absurd e (h7 n1 h6).1
      · rfl
    | mainRecv => exact absurd rfl hl
    | manageAdd p u => simp [World.step, hpush]
    | manageDelete p u => simp [World.step, hpush]

end Watched
end Gosstrak
