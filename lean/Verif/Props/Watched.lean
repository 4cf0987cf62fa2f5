import Verif.Proofs.WatchedJam

/-! # C105: the program with its statistics and the database -/
namespace Gosstrak
open Watched
variable {F : Type} {c : Config F} {sub : Subs} {percent : Percent F} {accept : Point F → Bool} {enabled : Bool}
  {s : Watched F}

/-- C105: statistics do not add behaviour: whatever the factory does with them it could do without. -/
theorem C105_within (h : Watched.Reaches c percent accept enabled sub s) : Reaches c sub s.world :=
  world_reaches h

/-- C105: what has been written: the measurements of the messages received, in their order, but for the one
    being handed over; each write has all those before, and all writes but one under way have succeeded. -/
theorem C105_written (h : Watched.Reaches c percent accept true sub s) (hd : s.stat.dead = false) :
    ∃ (done : List (StatMessage F)) (ps : List (Point F)),
      s.world.seen.filterMap Msg.toStat = done ++ s.holding.toList ∧ MeasuresAll percent done ps ∧
      s.stat.writes = (List.range s.stat.writes.length).map (fun k => ps.take (k + 1)) ∧
      s.stat.writes.length + (if s.writing then 1 else 0) = ps.length := by
  have hi := WInv.reaches h (.inl hd)
  obtain ⟨done, h1, h2⟩ := hi.taken
  exact ⟨done, s.stat.batch, h1, h2, hi.writes, hi.count⟩

/-- C105: the generators are never more than the capacity of the main channel and three reports ahead of the
    database. -/
theorem C105_ahead (h : Watched.Reaches c percent accept true sub s) (hd : s.stat.dead = false ∨ s.writing = true) :
    s.world.sent.length ≤ s.stat.writes.length + c.capacity + 3 := by
  have hi := WInv.reaches h hd
  obtain ⟨done, h1, h2⟩ := hi.taken
  have hp := (World.Conserved.reaches (world_reaches h)).perm.length_eq
  have hq := queue_reaches h
  have hs := reports_le s.world.seen
  have hl := h2.length_eq
  have hc := hi.count
  rw [h1, List.length_append] at hs
  simp only [List.filter_append, List.length_append] at hp
  have a1 : (s.world.queue.filter Msg.isReport).length ≤ s.world.queue.length := List.length_filter_le ..
  have a2 : (s.world.listener.hand.filter Msg.isReport).length ≤ 1 :=
    Nat.le_trans (List.length_filter_le ..) (by cases s.world.listener <;> simp [Listener.hand])
  have a3 : s.holding.toList.length ≤ 1 := by cases s.holding <;> simp
  split at hc <;> omega

/-- C105, the code: a `Write` that fails ends the process, and the measurement it was for is never written. -/
theorem C105_refused (h : Watched.Reaches c percent accept true sub s) (hw : s.writing = true) :
    ∃ s', Watched.step c percent accept true s .refused = some s' ∧
      (∀ l ls, Watched.run c percent accept true s' (l :: ls) = none) ∧
      ∃ (done : List (StatMessage F)) (ps : List (Point F)) (p : Point F),
        s'.world.seen.filterMap Msg.toStat = done ++ s'.holding.toList ∧ MeasuresAll percent done (ps ++ [p]) ∧
        s'.stat.writes = (List.range ps.length).map (fun k => ps.take (k + 1)) := by
  have hi := WInv.reaches h (.inr hw)
  obtain ⟨done, h1, h2⟩ := hi.taken
  have hc := hi.count
  rw [if_pos hw] at hc
  refine ⟨{ s with stat := { s.stat with dead := true } }, by simp [Watched.step, hw],
    fun l ls => by simp [Watched.run], done, s.stat.batch.dropLast,
    s.stat.batch.getLast (fun e => by rw [e] at hc; simp at hc), h1, by rw [List.dropLast_append_getLast]; exact h2, ?_⟩
  show s.stat.writes = _
  rw [hi.writes, List.length_dropLast, ← hc]
  simp only [Nat.add_sub_cancel]
  apply List.map_congr_left
  intro k hk
  have := List.mem_range.mp hk
  rw [List.dropLast_eq_take, List.take_take, Nat.min_eq_left (by omega)]

/-- C105: with statistics off the database is never asked, and a search under way can be completed by moves of the
    program alone. -/
theorem C105_off (hf : c.floats.Lawful) (hn : [] ∉ c.names) (hcap : 0 < c.capacity)
    (h : Watched.Reaches c percent accept false sub s) :
    (s.holding = none ∧ s.writing = false ∧ s.stat = ⟨[], [], false⟩) ∧
    ∃ (ls : List WatchLabel) (s' : Watched F),
      (∀ l ∈ ls, l = .take ∨ ∃ k : Label, l = .world k ∧ k.internal = true) ∧
      Watched.run c percent accept false s ls = some s' ∧ s'.world.searcher = .idle := by
  have h0 : s.holding = none ∧ s.writing = false ∧ s.stat = ⟨[], [], false⟩ := by
    obtain ⟨ls, hr⟩ := h
    refine Watched.run_induct
      (P := fun s => s.holding = none ∧ s.writing = false ∧ s.stat = ⟨[], [], false⟩)
      (fun s l s' h1 _ _ h4 => ?_) ls _ _ ⟨rfl, rfl, rfl⟩ hr
    obtain ⟨a1, a2, a3⟩ := h1
    cases l with
    | world k =>
      simp only [Watched.step] at h4
      split at h4
      · cases h4
      · obtain ⟨w, -, rfl⟩ := Option.map_eq_some_iff.mp h4
        exact ⟨a1, a2, a3⟩
    | take =>
      simp only [Watched.step] at h4
      split at h4
      · obtain ⟨w, -, rfl⟩ := Option.map_eq_some_iff.mp h4
        exact ⟨by simp, a2, a3⟩
      · cases h4
    | hand => simp [Watched.step, a1] at h4
    | written => simp [Watched.step, a2] at h4
    | refused => simp [Watched.step, a2] at h4
  refine ⟨h0, ?_⟩
  obtain ⟨ks, w', k1, k2, k3, -⟩ := C72_completes hf hn hcap (world_reaches h)
  obtain ⟨ls, s', l1, l2, l3⟩ := off_follows (percent := percent) (accept := accept) ks s w' h0.1
    (by rw [h0.2.2]) k1 k2
  exact ⟨ls, s', l1, l2, by rw [l3, k3]⟩

/-- C105: with statistics on a search under way can be completed if the database goes on answering and every
    point is accepted. -/
theorem C105_completes (hf : c.floats.Lawful) (hn : [] ∉ c.names) (hcap : 0 < c.capacity)
    (ha : ∀ p, accept p = true) (h : Watched.Reaches c percent accept true sub s) (hd : s.stat.dead = false) :
    ∃ (ls : List WatchLabel) (s' : Watched F), (∀ l ∈ ls, l.Inner) ∧
      Watched.run c percent accept true s ls = some s' ∧ s'.world.searcher = .idle ∧ s'.stat.dead = false := by
  obtain ⟨ks, w', k1, k2, k3, -⟩ := C72_completes hf hn hcap (world_reaches h)
  obtain ⟨ls, s', l1, l2, l3, l4⟩ := on_follows ha ks s w' h hd k1 k2
  exact ⟨ls, s', l1, l2, by rw [l3, k3], l4⟩

/-- `C105_stalls` for executions in which there are also moves that do not concern the factory and the database -/
theorem watched_stalls (hf : c.floats.Lawful) (hn : [] ∉ c.names) (s : Nat → Watched F) (l : Nat → Option WatchLabel)
    (alive : ∀ i, (s i).world.crashed = false ∧ (s i).stat.dead = false)
    (moves : ∀ i, (l i = none ∧ s (i + 1) = s i) ∨
      ∃ k, l i = some k ∧ Watched.step c percent accept true (s i) k = some (s (i + 1)))
    (h : Watched.Reaches c percent accept true sub (s 0))
    (i : Nat) (hw : (s i).writing = true) (hno : ∀ j, i ≤ j → ∀ k, l j = some k → ¬ k.Answer)
    (ht : ∀ n ∈ c.names, (∀ i, ∃ j, i ≤ j ∧ ((s j).world.gens n).monitor = .waiting) →
      ∀ i, ∃ j, i ≤ j ∧ l j = some (.world (.genTick n))) :
    ∃ j, ∀ k, j ≤ k → ∀ m, l k = some m → ¬ m.Searching := by
  have move : ∀ {j k}, l j = some k → Watched.step c percent accept true (s j) k = some (s (j + 1)) := by
    intro j k e
    rcases moves j with ⟨e', -⟩ | ⟨k', e', h'⟩
    · rw [e] at e'; cases e'
    · rw [e] at e'; cases e'; exact h'
  have world : ∀ j, (s (j + 1)).world = (s j).world ∨ ∃ k, World.step c (s j).world k = some (s (j + 1)).world ∧
      (l j = some (.world k) ∨ (l j = some .take ∧ k = .mainRecv)) := by
    intro j
    rcases moves j with ⟨-, e⟩ | ⟨k, e, h'⟩
    · exact .inl (by rw [e])
    · rcases world_step h' with e2 | ⟨k', h1, h2⟩
      · exact .inl e2
      · refine .inr ⟨k', h1, ?_⟩
        rcases h2 with h2 | ⟨h2, h3⟩
        · exact .inl (by rw [e, h2])
        · exact .inr ⟨by rw [e, h2], h3⟩
  have hr : ∀ j, Watched.Reaches c percent accept true sub (s j) := by
    intro j
    induction j with
    | zero => exact h
    | succ j ih =>
      rcases moves j with ⟨-, e⟩ | ⟨k, -, h'⟩
      · rw [e]; exact ih
      · exact Watched.reaches_step ih (alive j) h'
  -- the write under way stays under way
  have hw' : ∀ d, (s (i + d)).writing = true ∧ (s (i + d)).stat.writes = (s i).stat.writes := by
    intro d
    induction d with
    | zero => exact ⟨hw, rfl⟩
    | succ d ih =>
      rcases moves (i + d) with ⟨-, e⟩ | ⟨k, e, h'⟩
      · rw [show i + (d + 1) = i + d + 1 by omega, e]; exact ih
      · have := writing_stays ih.1 h' (hno (i + d) (by omega) k e)
        exact ⟨this.1, this.2.trans ih.2⟩
  -- so the number of reports is bounded
  have hb : ∀ d, (s (i + d)).world.sent.length ≤ (s i).stat.writes.length + c.capacity + 3 := by
    intro d
    have := C105_ahead (hr (i + d)) (.inl (alive _).2)
    rwa [(hw' d).2] at this
  have hmono : ∀ j, (s j).world.sent.length ≤ (s (j + 1)).world.sent.length ∧
      ((s j).world.sent.length = (s (j + 1)).world.sent.length → ∀ n, l j ≠ some (.world (.recvTraffic n))) := by
    intro j
    rcases world j with e | ⟨k, hk, h2⟩
    · refine ⟨Nat.le_of_eq (by rw [e]), fun _ n hl => ?_⟩
      have h3 := move hl
      simp only [Watched.step, reduceCtorEq, if_false] at h3
      obtain ⟨w, h4, h5⟩ := Option.map_eq_some_iff.mp h3
      have e2 : w = (s (j + 1)).world := by rw [← h5]
      rcases World.sent_step h4 with ⟨-, a⟩ | ⟨m, a⟩
      · exact a n rfl
      · rw [e2, e] at a
        have := congrArg List.length a
        simp at this
    · rcases World.sent_step hk with ⟨a, b⟩ | ⟨m, a⟩
      · refine ⟨Nat.le_of_eq (by rw [a]), fun _ n hl => ?_⟩
        rcases h2 with h2 | ⟨h2, -⟩
        · rw [hl] at h2
          cases h2
          exact b n rfl
        · rw [hl] at h2; cases h2
      · rw [a]
        exact ⟨by simp, fun h => by simp at h⟩
  obtain ⟨j0, hj0, hconst⟩ := bounded_settles (fun j => (s j).world.sent.length) (fun j => (hmono j).1) _ i hb
  have hquiet : ∀ j, j0 ≤ j → ∀ n, l j ≠ some (.world (.recvTraffic n)) := fun j hj =>
    (hmono j).2 ((hconst j hj).trans (hconst (j + 1) (by omega)).symm)
  -- so every generator ends up with a report it cannot deliver
  have hbusy : ∀ n ∈ c.names, ∃ j, ∀ k, j ≤ k → ((s k).world.gens n).monitor ≠ .waiting := by
    intro n hm
    apply Classical.byContradiction
    intro hc
    have hinf : ∀ j, ∃ k, j ≤ k ∧ ((s k).world.gens n).monitor = .waiting := by
      intro j
      apply Classical.byContradiction
      intro hx
      exact hc ⟨j, fun k hk e => hx ⟨k, hk, e⟩⟩
    obtain ⟨k, hk, hlk⟩ := ht n hm hinf j0
    obtain ⟨a, b, hab⟩ := genTick_sends (move hlk)
    have hst : ∀ d, ((s (k + 1 + d)).world.gens n).monitor = .sendTraffic a b := by
      intro d
      induction d with
      | zero => exact hab
      | succ d ih =>
        rcases world (k + 1 + d) with e | ⟨k', hk', h2⟩
        · rw [show k + 1 + (d + 1) = k + 1 + d + 1 by omega, e]; exact ih
        · refine World.sendTraffic_stays ih hk' fun e => ?_
          rcases h2 with h2 | ⟨-, h2⟩
          · exact hquiet (k + 1 + d) (by omega) n (by rw [h2, e])
          · rw [e] at h2; cases h2
    obtain ⟨k', hk', e⟩ := hinf (k + 1)
    have := hst (k' - (k + 1))
    rw [show k + 1 + (k' - (k + 1)) = k' by omega, e] at this
    cases this
  obtain ⟨j1, hj1⟩ := all_settle c.names (fun n k => ((s k).world.gens n).monitor ≠ .waiting) hbusy
  have htrack : ∀ k, j1 ≤ k → ∀ t, l k ≠ some (.world (.track t)) := by
    intro k hk t e
    have h3 := move e
    simp only [Watched.step, reduceCtorEq, if_false] at h3
    obtain ⟨w, h4, -⟩ := Option.map_eq_some_iff.mp h3
    simp only [World.step] at h4
    split at h4
    · rename_i n rest es
      split at h4
      · rename_i em
        have hu := C53_searched hf hn (world_reaches (hr k)) (n := n) (by rw [es]; rfl)
        exact hj1 n hu.1 k hk em
      · cases h4
    · cases h4
  by_cases hx : ∃ k o, j1 ≤ k ∧ l k = some (.world (.search o))
  · obtain ⟨k, o, hk, e⟩ := hx
    have hs1 : (s (k + 1)).world.searcher ≠ .idle := by
      exact search_begins (move e)
    have hst : ∀ d, (s (k + 1 + d)).world.searcher ≠ .idle := by
      intro d
      induction d with
      | zero => exact hs1
      | succ d ih =>
        rcases world (k + 1 + d) with e | ⟨k', hk', h2⟩
        · rw [show k + 1 + (d + 1) = k + 1 + d + 1 by omega, e]; exact ih
        · refine World.searcher_stays ih hk' fun t e => ?_
          rcases h2 with h2 | ⟨-, h2⟩
          · exact htrack (k + 1 + d) (by omega) t (by rw [h2, e])
          · rw [e] at h2; cases h2
    refine ⟨k + 1, fun k' hk' m hm hsrch => ?_⟩
    rcases hsrch with ⟨t, ht'⟩ | ⟨o', ho'⟩
    · exact htrack k' (by omega) t (by rw [hm, ht'])
    · have h3 := move (hm.trans (congrArg some ho'))
      have hidle := search_idle h3
      have := hst (k' - (k + 1))
      rw [show k + 1 + (k' - (k + 1)) = k' by omega] at this
      exact this hidle
  · refine ⟨j1, fun k hk m hm hsrch => ?_⟩
    rcases hsrch with ⟨t, ht'⟩ | ⟨o', ho'⟩
    · exact htrack k hk t (by rw [hm, ht'])
    · exact hx ⟨k, o', hk, by rw [hm, ho']⟩

/-- C105, the code: if a call of `Write` does not return, then in an endless execution in which the tickers of the
    generators are noticed no search begins or returns from some moment on. -/
theorem C105_stalls (hf : c.floats.Lawful) (hn : [] ∉ c.names) (s : Nat → Watched F) (l : Nat → WatchLabel)
    (he : Watched.Endless c percent accept true s l) (h : Watched.Reaches c percent accept true sub (s 0))
    (i : Nat) (hw : (s i).writing = true) (hno : ∀ j, i ≤ j → ¬ (l j).Answer)
    (ht : ∀ n ∈ c.names, Watched.Ticks s l n) : ∃ j, ∀ k, j ≤ k → ¬ (l k).Searching := by
  obtain ⟨j, hj⟩ := watched_stalls hf hn s (fun i => some (l i)) he.alive (fun i => .inr ⟨_, rfl, he.moves i⟩) h i hw
    (fun j hj k e => by cases e; exact hno j hj) fun n hn' hx i => by
      obtain ⟨j, h1, h2⟩ := ht n hn' hx i
      exact ⟨j, h1, by rw [h2]⟩
  exact ⟨j, fun k hk => hj k hk _ rfl⟩

/-- the list engine is ready; one report is being written, one is in hand, one is in the main channel; a search
    waits for a generator, and each of the four generators for the listener -/
def waitingFor : List WatchLabel :=
  let n := "List".toList
  let report : List WatchLabel := [.world (.genTick n), .world (.recvTraffic n), .world .listener,
    .world (.genCompute n), .world (.genReset n)]
  [.world (.init n), .world (.build n), .world (.deploy n), .world (.recvGenerated n), .world .listener,
    .world .listener, .world .listener, .world .listener, .take, .hand] ++ report ++ [.take] ++ report ++
    [.world (.search codeNames), .world .searchNext, .world .searchNext, .world .searchNext, .world .searchNext,
      .world .searchNext, .world (.engineSearch false)] ++ codeNames.map fun n => .world (.genTick n)

/-- any measure of a share -/
def anyPercent : Percent (Nat × Nat) := fun m n => (m.toNat, n.toNat)

/-- C105: the executions `C105_stalls` speaks of exist, and with them a search that never returns. -/
theorem C105_waits : ∃ (s : Nat → Watched (Nat × Nat)) (l : Nat → WatchLabel),
    Watched.Reaches exactCode anyPercent (fun _ => true) true [] (s 0) ∧
    Watched.Endless exactCode anyPercent (fun _ => true) true s l ∧ (s 0).writing = true ∧
    (∀ j, ¬ (l j).Answer) ∧ (∀ n ∈ codeNames, Watched.Ticks s l n) ∧
    ∀ j, (s j).world.searcher = .track "List".toList none := by
  have h : ((Watched.run exactCode anyPercent (fun _ => true) true (Watched.start exactCode []) waitingFor).map fun s =>
      decide ((s.world.listener = .idle ∧ s.world.searcher = .track "List".toList none) ∧
        (s.world.queue = [.traffic "List".toList 0 0] ∧ s.world.crashed = false) ∧
        (s.stat.dead = false ∧ s.writing = true) ∧ ∀ n ∈ codeNames, (s.world.gens n).monitor ≠ .waiting)) =
      some true := by decide +kernel
  obtain ⟨s, hs, he⟩ := Option.map_eq_some_iff.mp h
  obtain ⟨⟨e1, e2⟩, ⟨e3, e4⟩, ⟨e5, e6⟩, e7⟩ := of_decide_eq_true he
  have h0 : ∀ i : Nat, i % 2 = 0 ∨ i % 2 = 1 := fun i => by omega
  refine ⟨fun i => if i % 2 = 0 then s else
      { s with world := { s.world with queue := [], listener := .send (.traffic "List".toList 0 0) } },
    fun i => if i % 2 = 0 then .world .recvMain else .world .listener, ⟨waitingFor, by simpa using hs⟩, ⟨?_, ?_⟩,
    by simpa using e6, ?_, ?_, ?_⟩
  · intro i
    rcases h0 i with h | h <;> simp [h, e4, e5]
  · intro i
    rcases h0 i with h | h
    · have h' : (i + 1) % 2 = 1 := by omega
      simp [h, h', Watched.step, World.step, e1, e3]
    · have h' : (i + 1) % 2 = 0 := by omega
      have hc : 0 < exactCode.capacity := by decide
      cases s
      rename_i w hd st wr
      cases w
      simp_all [Watched.step, World.step, World.listenerStep, World.push]
  · intro i
    rcases h0 i with h | h <;> simp [h, WatchLabel.Answer]
  · intro n hn hx
    obtain ⟨j, -, hj⟩ := hx 0
    have := e7 n hn
    rcases h0 j with h | h <;> simp only [h, if_true, Nat.one_ne_zero, if_false] at hj <;> exact absurd hj this
  · intro i
    rcases h0 i with h | h <;> simp [h, e2]

/-- as before the first report of `waitingFor`, with four engines ready, a search that waits for a generator and a
    selector that waits for room in the main channel; one report is being written, one is in hand -/
def beforeJam : List WatchLabel :=
  let n := "List".toList
  let report : List WatchLabel := [.world (.genTick n), .world (.recvTraffic n), .world .listener,
    .world (.genCompute n), .world (.genReset n)]
  let ready (n : Str) : List WatchLabel := [.world (.init n), .world (.build n), .world (.deploy n),
    .world (.recvGenerated n), .world .listener, .world .listener]
  ready n ++ [.world .listener, .world .listener, .world .recvMain] ++
    ready "PatriciaTrie".toList ++ [.world .listener, .world .listener, .world .listener, .world .recvMain] ++
    ready "SplayTree".toList ++ ready "LegacyEngine".toList ++ report ++ [.take, .hand] ++ report ++ [.take] ++
    [.world (.search codeNames), .world .searchNext, .world (.engineSearch false)] ++
    [.world (.tick codeNames), .world .selector, .world .selector, .world .selector, .world .selector,
      .world .selector, .world .selector, .world .selector]

/-- C105, the code: a `Write` that does not return can bring the whole program to a stop in the middle of a search:
    no goroutine can move, no ticker is noticed and no message accepted, until the database answers. At that moment
    the generators are as far ahead of the database as `C105_ahead` allows. -/
theorem C105_frozen : ∃ s : Watched (Nat × Nat),
    Watched.Reaches exactCode anyPercent (fun _ => true) true [] s ∧ s.world.crashed = false ∧ s.stat.dead = false ∧
    s.world.searcher ≠ .idle ∧ s.stat.writes = [] ∧ s.world.sent.length = exactCode.capacity + 3 ∧
    ∀ l, Watched.step exactCode anyPercent (fun _ => true) true s l ≠ none → l.Answer := by
  have h : ((Watched.run exactCode anyPercent (fun _ => true) true (Watched.start exactCode []) beforeJam).map fun s =>
      decide ((s.world.listener = .idle ∧ s.world.searcher = .track "List".toList (some codeNames.tail)) ∧
        (s.world.queue = [] ∧ s.world.crashed = false) ∧ (s.stat.dead = false ∧ s.writing = true) ∧
        (s.holding.isSome = true ∧ s.world.selector = .send (.selected "PatriciaTrie".toList)) ∧
        (s.stat.writes = [] ∧ s.world.sent.length = 2) ∧
        ∀ n ∈ codeNames, (s.world.gens n).monitor = .waiting ∧ (s.world.gens n).builder = .done)) = some true := by
    decide +kernel
  obtain ⟨s, hs, he⟩ := Option.map_eq_some_iff.mp h
  obtain ⟨⟨e1, e2⟩, ⟨e3, e4⟩, ⟨e5, e6⟩, ⟨e7, e8⟩, ⟨e9, e10⟩, e11⟩ := of_decide_eq_true he
  have hq : quotients.Lawful := quotients_lawful
  have hlist : "List".toList ∈ exactCode.names := by decide
  have hrest : (s.world.gens "List".toList).events = 0 ∧ (s.world.gens "List".toList).totalTime = 0 := by
    have h' : ((Watched.run exactCode anyPercent (fun _ => true) true (Watched.start exactCode []) beforeJam).map
        fun s => decide ((s.world.gens "List".toList).events = 0 ∧ (s.world.gens "List".toList).totalTime = 0)) =
        some true := by decide +kernel
    rw [hs] at h'
    exact of_decide_eq_true (Option.some.inj h')
  obtain ⟨ls1, s1, r1, j1⟩ := jam_fills (percent := anyPercent) (accept := fun _ => true) (enabled := true) hq.div_nan
    hlist exactCode.capacity 0 2 s
    ⟨e4, e5, e6, e7, ⟨_, e8⟩, ⟨_, _, hlist, e2⟩, e11, e9, e10, e1, hrest, by rw [e3]; rfl⟩ (by omega)
  rw [Nat.zero_add] at j1
  obtain ⟨ls2, s2, r2, j2⟩ := jam_locks (percent := anyPercent) (accept := fun _ => true) (enabled := true) hq.div_nan
    hlist (by decide +kernel) j1
  have hr : Watched.Reaches exactCode anyPercent (fun _ => true) true [] s2 :=
    ⟨_, run_append _ _ _ _ _ (run_append _ _ _ _ _ hs r1) r2⟩
  obtain ⟨n, r, -, e⟩ := j2.searcher
  exact ⟨s2, hr, j2.alive, j2.on, by rw [e]; nofun, j2.writes, by rw [j2.sent]; omega,
    fun l hl => locked_stuck hq (by decide +kernel) hr j2 hl⟩

example : ((Watched.run exactCode anyPercent (fun _ => true) true (Watched.start exactCode [])
    (waitingFor ++ [.written, .hand, .written])).map fun s =>
      (s.stat.writes.map (List.map Point.measurement), s.holding.isSome)) =
    some ([["engine".toList], ["engine".toList, "traffic".toList]], false) := by decide +kernel
example : ((Watched.run exactCode anyPercent (fun _ => true) true (Watched.start exactCode [])
    (waitingFor ++ [.refused])).map fun s => (s.stat.dead, s.stat.writes.length)) = some (true, 0) := by decide +kernel
example : ((Watched.run exactCode anyPercent (fun _ => true) false (Watched.start exactCode [])
    ((waitingFor.filter (· ≠ .hand)) ++ [.take])).map fun s => (s.holding.isSome, s.world.queue.length)) =
    some (false, 0) := by decide +kernel

end Gosstrak
