import Verif.Spec.Watched
import Verif.Props.Stat
import Verif.Props.FactoryRest

namespace Gosstrak
variable {F : Type} {c : Config F} {sub : Subs} {percent : Percent F} {accept : Point F → Bool} {enabled : Bool}

namespace World
variable {w w' : World F} {l : Label}

theorem push_room {m : Msg F} (hs : push c w m = some w') :
    w' = { w with queue := w.queue ++ [m] } ∧ w.queue.length < c.capacity := by
  unfold World.push at hs
  split at hs <;> simp only [Option.some.injEq, reduceCtorEq] at hs
  exact ⟨hs.symm, by assumption⟩

/-- the main channel never holds more than its capacity -/
theorem queue_step (h : w.queue.length ≤ c.capacity) (hs : World.step c w l = some w') :
    w'.queue.length ≤ c.capacity := by
  cases l with
  | listener =>
    simp only [World.step, World.listenerStep] at hs
    split at hs
    case h_7 m e =>
      obtain ⟨w1, h1, rfl⟩ := Option.map_eq_some_iff.mp hs
      obtain ⟨rfl, h2⟩ := push_room h1
      simp; omega
    all_goals (repeat' split at hs) <;> cases hs <;> exact h
  | selector =>
    simp only [World.step, World.selectorStep] at hs
    split at hs
    case h_7 m e =>
      obtain ⟨w1, h1, rfl⟩ := Option.map_eq_some_iff.mp hs
      obtain ⟨rfl, h2⟩ := push_room h1
      simp; omega
    all_goals (repeat' split at hs) <;> cases hs <;> exact h
  | manageAdd p u =>
    obtain ⟨rfl, h2⟩ := push_room (m := .add p u) hs
    simp; omega
  | manageDelete p u =>
    obtain ⟨rfl, h2⟩ := push_room (m := .delete p u) hs
    simp; omega
  | recvMain =>
    simp only [World.step] at hs
    split at hs <;> try cases hs
    rename_i m q e1 e2
    rw [e2] at h
    simp only [List.length_cons] at h
    split at hs <;> cases hs <;> simp only <;> omega
  | mainRecv =>
    simp only [World.step] at hs
    split at hs <;> cases hs
    rename_i m q e2
    rw [e2] at h
    simp only [List.length_cons] at h
    simp only; omega
  | _ =>
    simp only [World.step] at hs
    (repeat' split at hs) <;> cases hs <;> exact h

/-- who makes reports -/
theorem sent_step (hs : World.step c w l = some w') :
    (w'.sent = w.sent ∧ (∀ n, l ≠ .recvTraffic n)) ∨ ∃ m, w'.sent = w.sent ++ [m] := by
  cases l with
  | listener =>
    simp only [World.step, World.listenerStep] at hs
    split at hs
    case h_7 m e =>
      obtain ⟨w1, h1, rfl⟩ := Option.map_eq_some_iff.mp hs
      rw [push_eq h1]; exact .inl ⟨rfl, fun _ => nofun⟩
    all_goals (repeat' split at hs) <;> cases hs <;> exact .inl ⟨rfl, fun _ => nofun⟩
  | selector =>
    simp only [World.step, World.selectorStep] at hs
    split at hs
    case h_7 m e =>
      obtain ⟨w1, h1, rfl⟩ := Option.map_eq_some_iff.mp hs
      rw [push_eq h1]; exact .inl ⟨rfl, fun _ => nofun⟩
    all_goals (repeat' split at hs) <;> cases hs <;> exact .inl ⟨rfl, fun _ => nofun⟩
  | manageAdd p u => rw [push_eq (m := .add p u) hs]; exact .inl ⟨rfl, fun _ => nofun⟩
  | manageDelete p u => rw [push_eq (m := .delete p u) hs]; exact .inl ⟨rfl, fun _ => nofun⟩
  | recvTraffic n =>
    simp only [World.step] at hs
    split at hs <;> cases hs
    exact .inr ⟨_, rfl⟩
  | recvStatus n =>
    simp only [World.step] at hs
    split at hs <;> cases hs
    exact .inr ⟨_, rfl⟩
  | _ =>
    simp only [World.step] at hs
    (repeat' split at hs) <;> cases hs <;> exact .inl ⟨rfl, fun _ => nofun⟩

theorem monitor_upd {n m : Str} {g : Gen F} {x : Monitor F} (hx : (w.gens n).monitor = x)
    (hg : m = n → g.monitor = x) : (upd w.gens m g n).monitor = x := by
  by_cases h : n = m
  · subst h; rw [upd_same]; exact hg rfl
  · rw [upd_other _ _ h]; exact hx

/-- a generator about to report its traffic stays so until the listener takes the report -/
theorem sendTraffic_stays {n : Str} {a b : Nat} (h : (w.gens n).monitor = .sendTraffic a b)
    (hs : World.step c w l = some w') (hl : l ≠ .recvTraffic n) : (w'.gens n).monitor = .sendTraffic a b := by
  cases l with
  | listener =>
    simp only [World.step, World.listenerStep] at hs
    split at hs
    case h_7 m e =>
      obtain ⟨w1, h1, rfl⟩ := Option.map_eq_some_iff.mp hs
      rw [push_eq h1]; exact h
    all_goals (repeat' split at hs) <;> cases hs <;> exact h
  | selector =>
    simp only [World.step, World.selectorStep] at hs
    split at hs
    case h_7 m e =>
      obtain ⟨w1, h1, rfl⟩ := Option.map_eq_some_iff.mp hs
      rw [push_eq h1]; exact h
    all_goals (repeat' split at hs) <;> cases hs <;> exact h
  | manageAdd p u => rw [push_eq (m := .add p u) hs]; exact h
  | manageDelete p u => rw [push_eq (m := .delete p u) hs]; exact h
  | recvTraffic m =>
    simp only [World.step] at hs
    split at hs <;> cases hs
    exact monitor_upd h fun e => absurd (congrArg Label.recvTraffic e) hl
  | _ =>
    simp only [World.step] at hs
    (repeat' split at hs) <;> cases hs <;>
      first
        | exact h
        | (refine monitor_upd h fun e => ?_; subst e; simp_all)

/-- a search that has begun ends with the counting of its last search of an engine -/
theorem searcher_stays (h : w.searcher ≠ .idle) (hs : World.step c w l = some w') (hl : ∀ t, l ≠ .track t) :
    w'.searcher ≠ .idle := by
  cases l with
  | listener =>
    simp only [World.step, World.listenerStep] at hs
    split at hs
    case h_7 m e =>
      obtain ⟨w1, h1, rfl⟩ := Option.map_eq_some_iff.mp hs
      rw [push_eq h1]; exact h
    all_goals (repeat' split at hs) <;> cases hs <;> exact h
  | selector =>
    simp only [World.step, World.selectorStep] at hs
    split at hs
    case h_7 m e =>
      obtain ⟨w1, h1, rfl⟩ := Option.map_eq_some_iff.mp hs
      rw [push_eq h1]; exact h
    all_goals (repeat' split at hs) <;> cases hs <;> exact h
  | manageAdd p u => rw [push_eq (m := .add p u) hs]; exact h
  | manageDelete p u => rw [push_eq (m := .delete p u) hs]; exact h
  | track t => exact absurd rfl (hl t)
  | _ =>
    simp only [World.step] at hs
    (repeat' split at hs) <;> cases hs <;> first | exact h | exact nofun

end World

open World

theorem isReport_toStat {m : Msg F} (h : m.isReport = true) : m.toStat.isSome = true := by
  cases m <;> first | rfl | cases h

/-- the reports among the messages received all become statistics -/
theorem reports_le (ms : List (Msg F)) :
    (ms.filter Msg.isReport).length ≤ (ms.filterMap Msg.toStat).length := by
  induction ms with
  | nil => simp
  | cons m ms ih =>
    rw [List.filter_cons, List.filterMap_cons]
    cases m <;> simp [Msg.isReport, Msg.toStat] at ih ⊢ <;> omega

theorem MeasuresAll.snoc {ms : List (StatMessage F)} {ps : List (Point F)} {m : StatMessage F} {p : Point F}
    (h : MeasuresAll percent ms ps) (hm : Measures percent m p) :
    MeasuresAll percent (ms ++ [m]) (ps ++ [p]) := by
  induction h with
  | nil => exact .cons hm .nil
  | cons h t ih => exact .cons h ih

theorem MeasuresAll.length_eq {ms : List (StatMessage F)} {ps : List (Point F)} (h : MeasuresAll percent ms ps) :
    ms.length = ps.length := by
  induction h with
  | nil => rfl
  | cons _ _ ih => simp [ih]

namespace Watched
variable {s s' : Watched F} {l : WatchLabel}

theorem run_snoc (ls : List WatchLabel) (s s1 s2 : Watched F) (h : run c percent accept enabled s ls = some s1)
    (ha : s1.world.crashed = false ∧ s1.stat.dead = false) (hs : step c percent accept enabled s1 l = some s2) :
    run c percent accept enabled s (ls ++ [l]) = some s2 := by
  induction ls generalizing s with
  | nil =>
    cases h
    simp [run, ha.1, ha.2, hs]
  | cons k ls ih =>
    simp only [run, List.cons_append] at h ⊢
    split at h
    · cases h
    · rename_i hd
      obtain ⟨s3, h1, h2⟩ := Option.bind_eq_some_iff.mp h
      rw [if_neg hd]
      exact Option.bind_eq_some_iff.mpr ⟨s3, h1, ih s3 h2⟩

theorem run_append (ls ks : List WatchLabel) (s s1 s2 : Watched F) (h : run c percent accept enabled s ls = some s1)
    (h2 : run c percent accept enabled s1 ks = some s2) : run c percent accept enabled s (ls ++ ks) = some s2 := by
  induction ls generalizing s with
  | nil => cases h; exact h2
  | cons k ls ih =>
    simp only [run, List.cons_append] at h ⊢
    split at h
    · cases h
    · rename_i hd
      obtain ⟨s3, h1, h2⟩ := Option.bind_eq_some_iff.mp h
      rw [if_neg hd]
      exact Option.bind_eq_some_iff.mpr ⟨s3, h1, ih s3 h2⟩

/-- induction over executions -/
theorem run_induct {P : Watched F → Prop}
    (hstep : ∀ s l s', P s → s.world.crashed = false → s.stat.dead = false →
      step c percent accept enabled s l = some s' → P s') :
    ∀ (ls : List WatchLabel) (s s' : Watched F), P s → run c percent accept enabled s ls = some s' → P s' := by
  intro ls
  induction ls with
  | nil => intro s s' h hr; cases hr; exact h
  | cons l ls ih =>
    intro s s' h hr
    simp only [run] at hr
    split at hr
    · cases hr
    rename_i hd
    obtain ⟨s1, h1, h2⟩ := Option.bind_eq_some_iff.mp hr
    refine ih s1 s' (hstep s l s1 h ?_ ?_ h1) h2
    · cases e : s.world.crashed <;> simp_all
    · cases e : s.stat.dead <;> simp_all

theorem reaches_step (h : Reaches c percent accept enabled sub s)
    (ha : s.world.crashed = false ∧ s.stat.dead = false) (hs : step c percent accept enabled s l = some s') :
    Reaches c percent accept enabled sub s' := by
  obtain ⟨ls, hr⟩ := h
  exact ⟨_, run_snoc ls _ _ _ hr ha hs⟩

theorem receive_world (m : StatMessage F) : (s.receive percent accept m).world = s.world := by
  unfold receive
  split
  · rfl
  · rfl
  · split <;> rfl

/-- a move is one of the factory, or the factory stands still -/
theorem world_step (hs : step c percent accept enabled s l = some s') :
    s'.world = s.world ∨ (∃ k, World.step c s.world k = some s'.world ∧
      (l = .world k ∨ (l = .take ∧ k = .mainRecv))) := by
  cases l with
  | world k =>
    simp only [step] at hs
    split at hs
    · cases hs
    · obtain ⟨w, h1, rfl⟩ := Option.map_eq_some_iff.mp hs
      exact .inr ⟨k, h1, .inl rfl⟩
  | take =>
    simp only [step] at hs
    split at hs
    · obtain ⟨w, h1, rfl⟩ := Option.map_eq_some_iff.mp hs
      exact .inr ⟨_, h1, .inr ⟨rfl, rfl⟩⟩
    · cases hs
  | hand =>
    simp only [step] at hs
    split at hs
    · split at hs
      · cases hs
      · cases hs; exact .inl (receive_world _)
    · cases hs
  | written => simp only [step] at hs; split at hs <;> cases hs; exact .inl rfl
  | refused => simp only [step] at hs; split at hs <;> cases hs; exact .inl rfl

/-- what the factory does with statistics on it could do without -/
theorem world_reaches (h : Reaches c percent accept enabled sub s) : Gosstrak.Reaches c sub s.world := by
  obtain ⟨ls, hr⟩ := h
  refine run_induct (P := fun s => Gosstrak.Reaches c sub s.world) (fun s l s' h1 h2 _ h4 => ?_) ls _ _ ⟨[], rfl⟩ hr
  rcases world_step h4 with e | ⟨k, hk, -⟩
  · show Gosstrak.Reaches c sub s'.world
    rw [e]; exact h1
  · exact World.reaches_step h1 h2 hk

theorem queue_reaches (h : Reaches c percent accept enabled sub s) : s.world.queue.length ≤ c.capacity := by
  obtain ⟨ls, hr⟩ := h
  refine run_induct (P := fun s => s.world.queue.length ≤ c.capacity) (fun s l s' h1 _ _ h4 => ?_) ls _ _
    (Nat.zero_le _) hr
  rcases world_step h4 with e | ⟨k, hk, -⟩
  · show s'.world.queue.length ≤ c.capacity
    rw [e]; exact h1
  · exact World.queue_step h1 hk

/-- with statistics on: what has been received is in the batch, but for the message being handed over; every
    batch but the one being written has been written -/
structure WInv (percent : Percent F) (s : Watched F) : Prop where
  taken : ∃ done, s.world.seen.filterMap Msg.toStat = done ++ s.holding.toList ∧
    MeasuresAll percent done s.stat.batch
  writes : s.stat.writes = (List.range s.stat.writes.length).map fun k => s.stat.batch.take (k + 1)
  count : s.stat.writes.length + (if s.writing then 1 else 0) = s.stat.batch.length
  held : ∀ m, s.holding = some m → ∃ p, Measures percent m p

theorem seen_step {w w' : World F} {k : Label} (hs : World.step c w k = some w') (hk : k ≠ .mainRecv) :
    w'.seen = w.seen := by
  cases k with
  | listener =>
    simp only [World.step, World.listenerStep] at hs
    split at hs
    case h_7 m e =>
      obtain ⟨w1, h1, rfl⟩ := Option.map_eq_some_iff.mp hs
      rw [push_eq h1]
    all_goals (repeat' split at hs) <;> cases hs <;> rfl
  | selector =>
    simp only [World.step, World.selectorStep] at hs
    split at hs
    case h_7 m e =>
      obtain ⟨w1, h1, rfl⟩ := Option.map_eq_some_iff.mp hs
      rw [push_eq h1]
    all_goals (repeat' split at hs) <;> cases hs <;> rfl
  | manageAdd p u => rw [push_eq (m := .add p u) hs]
  | manageDelete p u => rw [push_eq (m := .delete p u) hs]
  | mainRecv => exact absurd rfl hk
  | _ =>
    simp only [World.step] at hs
    (repeat' split at hs) <;> cases hs <;> rfl

/-- the batches written so far stay prefixes when a point is added -/
theorem prefixes_snoc {ws : List (List (Point F))} {b : List (Point F)} (p : Point F)
    (h : ws = (List.range ws.length).map fun k => b.take (k + 1)) (hl : ws.length ≤ b.length) :
    ws = (List.range ws.length).map fun k => (b ++ [p]).take (k + 1) := by
  conv => lhs; rw [h]
  apply List.map_congr_left
  intro k hk
  have := List.mem_range.mp hk
  rw [List.take_append_of_le_length (by omega)]

theorem WInv.step (h : WInv percent s) (hs : step c percent accept true s l = some s')
    (hd : s'.stat.dead = false ∨ s'.writing = true) : WInv percent s' := by
  cases l with
  | world k =>
    simp only [Watched.step] at hs
    split at hs
    · cases hs
    · rename_i hk
      obtain ⟨w, h1, rfl⟩ := Option.map_eq_some_iff.mp hs
      have e := seen_step h1 hk
      exact ⟨by rw [show ({ s with world := w } : Watched F).world.seen = w.seen from rfl, e]; exact h.taken,
        h.writes, h.count, h.held⟩
  | take =>
    simp only [Watched.step] at hs
    split at hs
    · rename_i m q e1 e2
      obtain ⟨w, h1, rfl⟩ := Option.map_eq_some_iff.mp hs
      simp only [World.step, e2] at h1
      cases h1
      obtain ⟨done, h2, h3⟩ := h.taken
      rw [e1, Option.toList, List.append_nil] at h2
      refine ⟨⟨done, ?_, h3⟩, h.writes, h.count, ?_⟩
      · simp only [List.filterMap_append, h2, if_true]
        cases e : m.toStat <;> simp [e]
      · intro m' hm
        rcases C73_proper (percent := percent) m with ⟨s1, p, a1, a2, -⟩ | ⟨a1, -⟩
        · simp only [if_true, a1, Option.some.injEq] at hm
          exact ⟨p, hm ▸ a2⟩
        · simp only [if_true, a1, reduceCtorEq] at hm
    · cases hs
  | hand =>
    simp only [Watched.step] at hs
    split at hs
    · rename_i m e1
      split at hs
      · cases hs
      rename_i hw
      cases hs
      obtain ⟨p, hp⟩ := h.held m e1
      obtain ⟨done, h2, h3⟩ := h.taken
      have hc := h.count
      rw [if_neg hw] at hc
      unfold receive at hd ⊢
      simp only [buildPoint_measures hp] at hd ⊢
      split at hd
      · rename_i ha
        rw [if_pos ha]
        refine ⟨⟨done ++ [m], ?_, h3.snoc hp⟩, prefixes_snoc p h.writes (Nat.le_of_eq hc), ?_, fun m hm => nomatch hm⟩
        · simp only [h2, e1, Option.toList, List.append_nil]
        · simp only [if_true, List.length_append, List.length_cons, List.length_nil]; omega
      · rcases hd with hd | hd
        · cases hd
        · exact absurd hd hw
    · cases hs
  | written =>
    simp only [Watched.step] at hs
    split at hs <;> cases hs
    rename_i hw
    have hc := h.count
    rw [if_pos hw] at hc
    refine ⟨h.taken, ?_, ?_, h.held⟩
    · simp only [List.length_append, List.length_cons, List.length_nil, List.range_succ, List.map_append,
        List.map_cons, List.map_nil]
      rw [← h.writes, hc, List.take_length]
    · simp only [List.length_append, List.length_cons, List.length_nil, Bool.false_eq_true, if_false]; omega
  | refused =>
    simp only [Watched.step] at hs
    split at hs <;> cases hs
    exact ⟨h.taken, h.writes, h.count, h.held⟩

theorem WInv.reaches (h : Reaches c percent accept true sub s) (hd : s.stat.dead = false ∨ s.writing = true) :
    WInv percent s := by
  obtain ⟨ls, hr⟩ := h
  refine run_induct (P := fun s => (s.stat.dead = false ∨ s.writing = true) → WInv percent s)
    (fun s l s' h1 _ h3 h4 hd' => (h1 (.inl h3)).step h4 hd') ls _ _ (fun _ => ?_) hr hd
  exact ⟨⟨[], rfl, .nil⟩, rfl, rfl, fun m hm => nomatch hm⟩

theorem writing_stays (h : s.writing = true) (hs : Watched.step c percent accept enabled s l = some s')
    (hl : ¬ l.Answer) : s'.writing = true ∧ s'.stat.writes = s.stat.writes := by
  cases l with
  | world k =>
    simp only [Watched.step] at hs
    split at hs
    · cases hs
    · obtain ⟨w, h1, rfl⟩ := Option.map_eq_some_iff.mp hs
      exact ⟨h, rfl⟩
  | take =>
    simp only [Watched.step] at hs
    split at hs
    · obtain ⟨w, h1, rfl⟩ := Option.map_eq_some_iff.mp hs
      exact ⟨h, rfl⟩
    · cases hs
  | hand =>
    simp only [Watched.step] at hs
    split at hs
    · rw [if_pos h] at hs; cases hs
    · cases hs
  | written => exact absurd (.inl rfl) hl
  | refused => exact absurd (.inr rfl) hl

/-- a number that does not decrease and is bounded stays the same in the end -/
theorem bounded_settles (f : Nat → Nat) (hm : ∀ j, f j ≤ f (j + 1)) (b i : Nat) (hb : ∀ d, f (i + d) ≤ b) :
    ∃ j0, i ≤ j0 ∧ ∀ j, j0 ≤ j → f j = f j0 := by
  have mono : ∀ j d, f j ≤ f (j + d) := by
    intro j d
    induction d with
    | zero => exact Nat.le_refl _
    | succ d ih => exact Nat.le_trans ih (hm (j + d))
  suffices H : ∀ r j0, i ≤ j0 → b ≤ f j0 + r → ∃ j0, i ≤ j0 ∧ ∀ j, j0 ≤ j → f j = f j0 from
    H b i (Nat.le_refl _) (by omega)
  intro r
  induction r with
  | zero =>
    intro j0 h1 h2
    refine ⟨j0, h1, fun j hj => ?_⟩
    have a := mono j0 (j - j0)
    have b' := hb (j - i)
    rw [show j0 + (j - j0) = j by omega] at a
    rw [show i + (j - i) = j by omega] at b'
    omega
  | succ r ih =>
    intro j0 h1 h2
    by_cases hx : ∃ j, j0 ≤ j ∧ f j ≠ f j0
    · obtain ⟨j, h3, h4⟩ := hx
      have a := mono j0 (j - j0)
      rw [show j0 + (j - j0) = j by omega] at a
      exact ih j (by omega) (by omega)
    · exact ⟨j0, h1, fun j hj => Classical.byContradiction fun e => hx ⟨j, hj, e⟩⟩

/-- what holds of each in the end holds of all in the end -/
theorem all_settle {α : Type} (ns : List α) (P : α → Nat → Prop) (h : ∀ n ∈ ns, ∃ j, ∀ k, j ≤ k → P n k) :
    ∃ j, ∀ n ∈ ns, ∀ k, j ≤ k → P n k := by
  induction ns with
  | nil => exact ⟨0, fun n hn => nomatch hn⟩
  | cons n ns ih =>
    obtain ⟨j1, h1⟩ := ih fun n hn => h n (List.mem_cons_of_mem _ hn)
    obtain ⟨j2, h2⟩ := h n List.mem_cons_self
    refine ⟨max j1 j2, fun m hm k hk => ?_⟩
    rcases List.mem_cons.mp hm with rfl | hm
    · exact h2 k (by omega)
    · exact h1 m hm k (by omega)

theorem genTick_sends {n : Str} (hs : Watched.step c percent accept enabled s (.world (.genTick n)) = some s') :
    ∃ a b, (s'.world.gens n).monitor = .sendTraffic a b := by
  simp only [Watched.step, reduceCtorEq, if_false] at hs
  obtain ⟨w, h1, rfl⟩ := Option.map_eq_some_iff.mp hs
  simp only [World.step] at h1
  (repeat' split at h1) <;> cases h1
  exact ⟨_, _, by simp [World.setGen, upd]; exact ⟨rfl, rfl⟩⟩

theorem search_begins {o : List Str} (hs : Watched.step c percent accept enabled s (.world (.search o)) = some s') :
    s'.world.searcher ≠ .idle := by
  simp only [Watched.step, reduceCtorEq, if_false] at hs
  obtain ⟨w, h1, rfl⟩ := Option.map_eq_some_iff.mp hs
  simp only [World.step] at h1
  (repeat' split at h1) <;> cases h1
  exact nofun

theorem search_idle {o : List Str} (hs : Watched.step c percent accept enabled s (.world (.search o)) = some s') :
    s.world.searcher = .idle := by
  simp only [Watched.step, reduceCtorEq, if_false] at hs
  obtain ⟨w, h1, rfl⟩ := Option.map_eq_some_iff.mp hs
  simp only [World.step] at h1
  split at h1
  · assumption
  · cases h1

theorem crashed_false {w : World F} (h : ¬ w.crashed = true) : w.crashed = false := by
  cases e : w.crashed <;> simp_all

/-- with statistics off the program follows every execution of the factory -/
theorem off_follows : ∀ (ks : List Label) (s : Watched F) (w' : World F), s.holding = none → s.stat.dead = false →
    (∀ k ∈ ks, k.internal = true) → World.run c s.world ks = some w' →
    ∃ (ls : List WatchLabel) (s' : Watched F),
      (∀ l ∈ ls, l = .take ∨ ∃ k : Label, l = .world k ∧ k.internal = true) ∧
      Watched.run c percent accept false s ls = some s' ∧ s'.world = w'
  | [], s, w', _, _, _, hr => by
    cases hr
    exact ⟨[], s, nofun, rfl, rfl⟩
  | k :: ks, s, w', h1, h2, h3, hr => by
    simp only [World.run] at hr
    split at hr
    · cases hr
    rename_i hc
    obtain ⟨w1, a1, a2⟩ := Option.bind_eq_some_iff.mp hr
    by_cases hk : k = .mainRecv
    · subst hk
      obtain ⟨ls, s', b1, b2, b3⟩ := off_follows ks { s with world := w1, holding := none } w' rfl h2
        (fun k hk => h3 k (List.mem_cons_of_mem _ hk)) a2
      refine ⟨.take :: ls, s', fun l hl => ?_, ?_, b3⟩
      · rcases List.mem_cons.mp hl with rfl | hl
        · exact .inl rfl
        · exact b1 l hl
      · have : Watched.step c percent accept false s .take = some { s with world := w1, holding := none } := by
          cases e : s.world.queue with
          | nil => simp [World.step, e] at a1
          | cons m q => simp [Watched.step, h1, e, a1]
        simp [Watched.run, crashed_false hc, h2, this, b2]
    · obtain ⟨ls, s', b1, b2, b3⟩ := off_follows ks { s with world := w1 } w' h1 h2
        (fun k hk => h3 k (List.mem_cons_of_mem _ hk)) a2
      refine ⟨.world k :: ls, s', fun l hl => ?_, ?_, b3⟩
      · rcases List.mem_cons.mp hl with rfl | hl
        · exact .inr ⟨k, rfl, h3 k List.mem_cons_self⟩
        · exact b1 l hl
      · have : Watched.step c percent accept false s (.world k) = some { s with world := w1 } := by
          simp [Watched.step, hk, a1]
        simp [Watched.run, crashed_false hc, h2, this, b2]

/-- a message in hand can be handed over if the database answers -/
theorem clears (ha : ∀ p, accept p = true) (h : Reaches c percent accept true sub s)
    (hd : s.stat.dead = false) (hc : s.world.crashed = false) :
    ∃ (ls : List WatchLabel) (s' : Watched F), (∀ l ∈ ls, l.Inner) ∧
      Watched.run c percent accept true s ls = some s' ∧ s'.world = s.world ∧ s'.holding = none ∧
      s'.stat.dead = false := by
  cases e : s.holding with
  | none => exact ⟨[], s, nofun, rfl, rfl, e, hd⟩
  | some m =>
    obtain ⟨p, hp⟩ := (WInv.reaches h (.inl hd)).held m e
    have hrec : ∀ t : Watched F, t.stat.dead = false → t.world = s.world →
        (t.receive percent accept m).world = s.world ∧ (t.receive percent accept m).holding = none ∧
        (t.receive percent accept m).stat.dead = false := by
      intro t h1 h2
      refine ⟨by rw [receive_world, h2], ?_⟩
      unfold receive
      simp only [buildPoint_measures hp, ha p, if_true]
      exact ⟨trivial, h1⟩
    by_cases hw : s.writing = true
    · let t : Watched F := { s with stat := { s.stat with writes := s.stat.writes ++ [s.stat.batch] }, writing := false }
      refine ⟨[.written, .hand], t.receive percent accept m, ?_, ?_, hrec t hd rfl⟩
      · intro l hl
        rcases List.mem_cons.mp hl with rfl | hl
        · exact .inr (.inr (.inr rfl))
        · rw [List.mem_singleton.mp hl]; exact .inr (.inr (.inl rfl))
      · simp [Watched.run, Watched.step, hc, hd, hw, e, t]
    · refine ⟨[.hand], s.receive percent accept m, ?_, ?_, hrec s hd rfl⟩
      · intro l hl
        rw [List.mem_singleton.mp hl]; exact .inr (.inr (.inl rfl))
      · simp [Watched.run, Watched.step, hc, hd, hw, e]

/-- with statistics on the program follows every execution of the factory, if the database answers -/
theorem on_follows (ha : ∀ p, accept p = true) : ∀ (ks : List Label) (s : Watched F) (w' : World F),
    Reaches c percent accept true sub s → s.stat.dead = false →
    (∀ k ∈ ks, k.internal = true) → World.run c s.world ks = some w' →
    ∃ (ls : List WatchLabel) (s' : Watched F), (∀ l ∈ ls, l.Inner) ∧
      Watched.run c percent accept true s ls = some s' ∧ s'.world = w' ∧ s'.stat.dead = false
  | [], s, w', _, h2, _, hr => by
    cases hr
    exact ⟨[], s, nofun, rfl, rfl, h2⟩
  | k :: ks, s, w', h1, h2, h3, hr => by
    simp only [World.run] at hr
    split at hr
    · cases hr
    rename_i hc
    obtain ⟨w1, a1, a2⟩ := Option.bind_eq_some_iff.mp hr
    by_cases hk : k = .mainRecv
    · subst hk
      obtain ⟨ls1, s1, c1, c2, c3, c4, c5⟩ := clears ha h1 h2 (crashed_false hc)
      cases e : s.world.queue with
      | nil => simp [World.step, e] at a1
      | cons m q =>
        have hst : Watched.step c percent accept true s1 .take =
            some { s1 with world := w1, holding := m.toStat } := by
          simp [Watched.step, c3, c4, e, a1]
        have hr1 : Reaches c percent accept true sub s1 := by
          obtain ⟨l0, r0⟩ := h1
          exact ⟨_, run_append _ _ _ _ _ r0 c2⟩
        have hal : s1.world.crashed = false ∧ s1.stat.dead = false := ⟨by rw [c3]; exact crashed_false hc, c5⟩
        obtain ⟨ls, s', b1, b2, b3, b4⟩ := on_follows ha ks { s1 with world := w1, holding := m.toStat } w'
          (Watched.reaches_step hr1 hal hst) c5 (fun k hk => h3 k (List.mem_cons_of_mem _ hk)) a2
        refine ⟨ls1 ++ [.take] ++ ls, s', fun l hl => ?_,
          run_append _ _ _ _ _ (run_snoc _ _ _ _ c2 hal hst) b2, b3, b4⟩
        rcases List.mem_append.mp hl with hl | hl
        · rcases List.mem_append.mp hl with hl | hl
          · exact c1 l hl
          · rw [List.mem_singleton.mp hl]; exact .inr (.inl rfl)
        · exact b1 l hl
    · have hst : Watched.step c percent accept true s (.world k) = some { s with world := w1 } := by
        simp [Watched.step, hk, a1]
      obtain ⟨ls, s', b1, b2, b3, b4⟩ := on_follows ha ks { s with world := w1 } w'
        (Watched.reaches_step h1 ⟨crashed_false hc, h2⟩ hst) h2 (fun k hk => h3 k (List.mem_cons_of_mem _ hk)) a2
      refine ⟨.world k :: ls, s', fun l hl => ?_, ?_, b3, b4⟩
      · rcases List.mem_cons.mp hl with rfl | hl
        · exact .inl ⟨k, rfl, h3 k List.mem_cons_self⟩
        · exact b1 l hl
      · simp [Watched.run, crashed_false hc, h2, hst, b2]

end Watched
end Gosstrak
