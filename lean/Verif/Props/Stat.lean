import Verif.Spec.Stat
import Verif.Props.Factory

/-! # C62, C73, C74: statistics -/
namespace Gosstrak
variable {F : Type} {percent : Percent F} {accept : Point F → Bool}

theorem engineNumber_total (n : Str) : ∃ k, EngineNumber n k := by
  by_cases h1 : n = "List".toList
  · exact ⟨1, .inl ⟨h1, rfl⟩⟩
  by_cases h2 : n = "PatriciaTrie".toList
  · exact ⟨2, .inr (.inl ⟨h2, rfl⟩)⟩
  by_cases h3 : n = "SplayTree".toList
  · exact ⟨3, .inr (.inr (.inl ⟨h3, rfl⟩))⟩
  · exact ⟨0, .inr (.inr (.inr ⟨h1, h2, h3, rfl⟩))⟩

theorem buildPoint_measures {m : StatMessage F} {p : Point F} (h : Measures percent m p) :
    buildPoint percent m = .point p := by
  cases h with
  | traffic n e m h => simp [buildPoint, h]
  | quiet n m => simp [buildPoint]
  | throughput n v => rfl
  | selected n k h =>
    rcases h with ⟨rfl, rfl⟩ | ⟨rfl, rfl⟩ | ⟨rfl, rfl⟩ | ⟨h1, h2, h3, rfl⟩
    · rfl
    · rfl
    · rfl
    · simp only [buildPoint, engineType, if_neg h1, if_neg h2, if_neg h3, ite_self]

/-- the batches after a run from any state: prefixes of the points made, behind the old batch -/
theorem statRun_from : ∀ (ms : List (StatMessage F)) (ps : List (Point F)) (s : StatState F),
    MeasuresAll percent ms ps → (∀ p ∈ ps, accept p = true) → s.dead = false →
    ms.foldl (StatState.handle percent accept) s = ⟨s.batch ++ ps,
      s.writes ++ (List.range ps.length).map (fun k => s.batch ++ ps.take (k + 1)), false⟩
  | _, _, s, .nil, _, hd => by cases s; simp_all
  | m :: ms, p :: ps, s, .cons h t, ha, hd => by
    have h1 : s.handle percent accept m = ⟨s.batch ++ [p], s.writes ++ [s.batch ++ [p]], false⟩ := by
      simp [StatState.handle, hd, buildPoint_measures h, ha p List.mem_cons_self]
    rw [List.foldl_cons, h1, statRun_from ms ps _ t (fun x hx => ha x (List.mem_cons_of_mem _ hx)) rfl]
    simp [List.range_succ_eq_map, Function.comp_def]

/-- C62: the `k`-th write sends all measurements up to the `k`-th. -/
theorem C62_writes {ms : List (StatMessage F)} {ps : List (Point F)} (h : MeasuresAll percent ms ps)
    (ha : ∀ p ∈ ps, accept p = true) :
    (statRun percent accept ms).writes = (List.range ps.length).map (fun k => ps.take (k + 1)) ∧
      (statRun percent accept ms).dead = false := by
  rw [statRun, statRun_from ms ps _ h ha rfl]
  simp

theorem sum_range (n : Nat) : 2 * ((List.range n).map (· + 1)).sum = n * (n + 1) := by
  induction n with
  | zero => rfl
  | succ n ih =>
    rw [List.range_succ, List.map_append, List.sum_append, Nat.mul_add, ih]
    simp only [List.map_cons, List.map_nil, List.sum_cons, List.sum_nil]
    rw [show (n + 1) * (n + 1 + 1) = n * (n + 1) + 2 * (n + 1) by
      rw [Nat.mul_comm n, Nat.mul_comm 2, ← Nat.mul_add]]
    omega

/-- C62: `n` measurements cost `n (n + 1) / 2` points over the wire. -/
theorem C62_total {ms : List (StatMessage F)} {ps : List (Point F)} (h : MeasuresAll percent ms ps)
    (ha : ∀ p ∈ ps, accept p = true) :
    2 * (((statRun percent accept ms).writes.map List.length).sum) = ms.length * (ms.length + 1) := by
  have hl : ms.length = ps.length := by
    clear ha
    induction h with
    | nil => rfl
    | cons _ _ ih => simp [ih]
  rw [(C62_writes h ha).1, hl, ← sum_range, List.map_map]
  congr 2
  apply List.map_congr_left
  intro k hk
  have := List.mem_range.mp hk
  simp
  omega

/-- C62: a measurement is written once only if it is the last. -/
theorem C62_repeated {ms : List (StatMessage F)} {ps : List (Point F)} (h : MeasuresAll percent ms ps)
    (ha : ∀ p ∈ ps, accept p = true) (j : Nat) (hj : j < ps.length) :
    ((statRun percent accept ms).writes.filter fun b => decide (j < b.length)).length = ps.length - j ∧
      ∀ b ∈ (statRun percent accept ms).writes, j < b.length → b[j]? = ps[j]? := by
  rw [(C62_writes h ha).1]
  constructor
  · rw [← List.countP_eq_length_filter, List.countP_map]
    have : ∀ n, n ≤ ps.length → j ≤ n → (List.range n).countP
        ((fun b : List (Point F) => decide (j < b.length)) ∘ fun k => ps.take (k + 1)) = n - j := by
      intro n
      induction n with
      | zero => intro _ _; simp
      | succ n ih =>
        intro h1 h2
        rw [List.range_succ, List.countP_append]
        by_cases hjn : j ≤ n
        · have h1 : List.countP ((fun b : List (Point F) => decide (j < b.length)) ∘
              fun k => ps.take (k + 1)) [n] = 1 := by
            rw [List.countP_eq_length.mpr]
            · rfl
            · intro k hk
              rw [List.mem_singleton.mp hk]
              simp; omega
          rw [ih (by omega) hjn, h1]
          omega
        · have : j = n + 1 := by omega
          subst this
          have h0 : (List.range n).countP ((fun b : List (Point F) => decide (n + 1 < b.length)) ∘
              fun k => ps.take (k + 1)) = 0 := by
            rw [List.countP_eq_zero]
            intro k hk
            have := List.mem_range.mp hk
            simp; omega
          rw [h0]
          simp; omega
    exact this _ (Nat.le_refl _) (by omega)
  · intro b hb hl
    obtain ⟨k, -, rfl⟩ := List.mem_map.mp hb
    rw [List.length_take] at hl
    rw [List.getElem?_take_of_lt (by omega)]

/-- C62: traffic messages with counters of the wrong type are skipped. -/
theorem C62_untyped (m : StatMessage F) (h : Untyped m) (s : StatState F) :
    s.handle percent accept m = s := by
  obtain ⟨h1, a, b, rest, h2, h3⟩ := h
  have : buildPoint percent m = .skip := by
    unfold buildPoint
    rw [h1, h2]
    rcases h3 with h3 | h3
    · cases a <;> first | rfl | exact absurd rfl (h3 _)
    · cases a <;> cases b <;> first | rfl | exact absurd rfl (h3 _)
  unfold StatState.handle
  rw [this]
  split <;> rfl

/-- C62: a message with too few values ends the process, whatever came before: nothing of what follows is
    written. -/
theorem C62_too_few (m : StatMessage F) (h : TooFew m) (ms later : List (StatMessage F)) :
    (statRun percent accept (ms ++ m :: later)).dead = true ∧
      (statRun percent accept (ms ++ m :: later)).writes = (statRun percent accept ms).writes := by
  have hb : buildPoint percent m = .panic := by
    unfold buildPoint
    rcases h with ⟨h1, h2 | ⟨n, h2⟩⟩ | ⟨h1, h2⟩ <;> rw [h1, h2]
  have stay : ∀ (l : List (StatMessage F)) (s : StatState F), s.dead = true →
      l.foldl (StatState.handle percent accept) s = s := by
    intro l
    induction l with
    | nil => intro s _; rfl
    | cons m l ih => intro s hs; rw [List.foldl_cons, show s.handle percent accept m = s by simp [StatState.handle, hs], ih s hs]
  rw [statRun, List.foldl_append, List.foldl_cons, ← statRun]
  have : ((statRun percent accept ms).handle percent accept m).dead = true ∧
      ((statRun percent accept ms).handle percent accept m).writes = (statRun percent accept ms).writes := by
    unfold StatState.handle
    rw [hb]
    split
    · rename_i hd; exact ⟨hd, rfl⟩
    · exact ⟨rfl, rfl⟩
  rw [stay _ _ this.1]
  exact this

/-- C62: a message of a type other than the three is a point without name, tags and values; if the client
    refuses that one point, the process ends. -/
theorem C62_other (m : StatMessage F) (h : m.type = .other) (hr : accept ⟨[], [], []⟩ = false)
    (ms later : List (StatMessage F)) :
    (statRun percent accept (ms ++ m :: later)).dead = true ∧
      (statRun percent accept (ms ++ m :: later)).writes = (statRun percent accept ms).writes := by
  have stay : ∀ (l : List (StatMessage F)) (s : StatState F), s.dead = true →
      l.foldl (StatState.handle percent accept) s = s := by
    intro l
    induction l with
    | nil => intro s _; rfl
    | cons m l ih => intro s hs; rw [List.foldl_cons, show s.handle percent accept m = s by simp [StatState.handle, hs], ih s hs]
  rw [statRun, List.foldl_append, List.foldl_cons, ← statRun]
  have : ((statRun percent accept ms).handle percent accept m).dead = true ∧
      ((statRun percent accept ms).handle percent accept m).writes = (statRun percent accept ms).writes := by
    unfold StatState.handle buildPoint
    rw [h]
    dsimp only
    split
    · rename_i hd; exact ⟨hd, rfl⟩
    · rw [hr]; exact ⟨rfl, rfl⟩
  rw [stay _ _ this.1]
  exact this

example : (statRun (fun m n => (100 * m / n).toNat) (fun p => decide (p.fields ≠ [])) [⟨.selectedEngine, [], []⟩,
    ⟨.other, [.int64 4], "List".toList⟩, ⟨.selectedEngine, [], []⟩]).writes.map List.length = [1] := by decide +kernel

example : TooFew (⟨.traffic, [.int64 4], "List".toList⟩ : StatMessage Nat) ∧
    (statRun (fun m n => (100 * m / n).toNat) (fun _ => true) [⟨.selectedEngine, [], []⟩,
      ⟨.traffic, [.int64 4], "List".toList⟩, ⟨.selectedEngine, [], []⟩]).writes.map List.length = [1] :=
  ⟨.inl ⟨rfl, .inr ⟨4, rfl⟩⟩, by decide +kernel⟩

/-- three measurements -/
def someStats : List (StatMessage Nat) :=
  [⟨.traffic, [.int64 4, .int64 1], "List".toList⟩, ⟨.engineThroughput, [.float64 3], "List".toList⟩,
    ⟨.selectedEngine, [], "SplayTree".toList⟩]

example : (statRun (fun m n => (100 * m / n).toNat) (fun _ => true) someStats).writes.map List.length =
    [1, 2, 3] := by decide +kernel
example : ∃ ps, MeasuresAll (fun m n => (100 * m / n).toNat) someStats ps :=
  ⟨_, .cons (.traffic _ _ _ (by decide)) (.cons (.throughput ..) (.cons (.selected _ 3 (by decide +kernel)) .nil))⟩
example : Untyped (⟨.traffic, [.int64 4, .int 1], []⟩ : StatMessage Nat) :=
  ⟨rfl, _, _, _, rfl, .inr (by simp)⟩

/-! ## C73 -/

/-- C73: whatever reaches the main program from the factory is passed on as a proper measurement with
    the values of the message; only messages about subscriptions are not passed on. -/
theorem C73_proper (m : Msg F) :
    (∃ s p, m.toStat = some s ∧ Measures percent s p ∧ Records percent m p) ∨
      (m.toStat = none ∧ ∃ pat u, m = .add pat u ∨ m = .delete pat u) := by
  cases m with
  | traffic n e k =>
    refine .inl ?_
    by_cases he : e = 0
    · subst he
      exact ⟨_, _, rfl, .quiet n k, .quiet n k⟩
    · exact ⟨_, _, rfl, .traffic n e k (by omega), .traffic n e k he⟩
  | status n v => exact .inl ⟨_, _, rfl, .throughput n v, .throughput n v⟩
  | selected n =>
    obtain ⟨k, hk⟩ := engineNumber_total n
    exact .inl ⟨_, _, rfl, .selected n k hk, .selected n k hk⟩
  | add p u => exact .inr ⟨rfl, p, u, .inl rfl⟩
  | delete p u => exact .inr ⟨rfl, p, u, .inr rfl⟩

theorem dead_foldl (ms : List (StatMessage F)) (s : StatState F) (h : s.dead = true) :
    ms.foldl (StatState.handle percent accept) s = s := by
  induction ms with
  | nil => rfl
  | cons m ms ih => rw [List.foldl_cons, show s.handle percent accept m = s by simp [StatState.handle, h], ih]

/-- C73: the first measurement the client library refuses ends the process: nothing of it or of what
    follows is written. -/
theorem C73_refused {ms : List (StatMessage F)} {ps : List (Point F)} (h : MeasuresAll percent ms ps)
    (ha : ∀ p ∈ ps, accept p = true) {m : StatMessage F} {p : Point F} (hm : Measures percent m p)
    (hr : accept p = false) (later : List (StatMessage F)) :
    (statRun percent accept (ms ++ m :: later)).dead = true ∧
      (statRun percent accept (ms ++ m :: later)).writes = (statRun percent accept ms).writes := by
  rw [statRun, List.foldl_append, List.foldl_cons, ← statRun]
  have hd := (C62_writes h ha).2
  have : (statRun percent accept ms).handle percent accept m =
      { statRun percent accept ms with dead := true } := by
    simp [StatState.handle, hd, buildPoint_measures hm, hr]
  rw [this, dead_foldl _ _ rfl]
  exact ⟨rfl, rfl⟩

/-- a client library that refuses infinite values, as that of InfluxDB does -/
def refusesInfinite (p : Point (Nat × Nat)) : Bool :=
  p.fields.all fun f => match f.2 with
    | .float64 v => v.2 ≠ 0
    | _ => true

/-- C73: so the program can end because an engine was fast: one search of less than a microsecond and
    a tick of the engine's monitor. -/
theorem C73_fast_engine_ends (percent : Percent (Nat × Nat)) (hp : ∀ m n, n ≠ 0 → (percent m n).2 ≠ 0) :
    ∃ (ls : List Label) (w : World (Nat × Nat)), World.run exactCode (World.start exactCode []) ls = some w ∧
      w.crashed = false ∧ (statRun percent refusesInfinite (w.seen.filterMap Msg.toStat)).dead = true ∧
      (statRun percent refusesInfinite ((w.seen.dropLast).filterMap Msg.toStat)).dead = false := by
  let n := "List".toList
  let ls := listReady ++ oneSearch true 999 ++ listTick
  have h : (World.run exactCode (World.start exactCode []) ls).isSome = true := by decide +kernel
  obtain ⟨w, hw⟩ := Option.isSome_iff_exists.mp h
  have e : (World.run exactCode (World.start exactCode []) ls).map (fun w => decide (w.crashed = false ∧
      w.seen = [.selected n, .traffic n 1 1, .status n (1, 0)])) = some true := by
    decide +kernel
  rw [hw] at e
  obtain ⟨h1, h2⟩ := of_decide_eq_true (Option.some.inj e)
  have m1 : Measures percent ⟨.selectedEngine, [], n⟩
      ⟨"engine".toList, [], [("selected".toList, .int 1)]⟩ := .selected n 1 (.inl ⟨rfl, rfl⟩)
  have m2 : Measures percent ⟨.traffic, [.int64 1, .int64 1], n⟩ _ := .traffic n 1 1 (by decide)
  have m3 : Measures percent ⟨.engineThroughput, [.float64 (1, 0)], n⟩ _ := .throughput n (1, 0)
  have hall := MeasuresAll.cons m1 (.cons m2 .nil)
  have hok : ∀ p ∈ [(⟨"engine".toList, [], [("selected".toList, .int 1)]⟩ : Point (Nat × Nat)),
      ⟨"traffic".toList, [("engine".toList, n)],
        [("incoming_events".toList, .int64 1), ("matched_events".toList, .int64 1),
          ("matching_probability".toList, .float64 (percent 1 1))]⟩], refusesInfinite p = true := by
    intro p hp'
    rcases List.mem_cons.mp hp' with rfl | hp'
    · rfl
    · rw [List.mem_singleton.mp hp']
      simp only [refusesInfinite, List.all_cons, List.all_nil, Bool.and_true, Bool.true_and, decide_eq_true_eq]
      exact hp 1 1 (by decide)
  refine ⟨ls, w, hw, h1, ?_, ?_⟩
  · rw [h2]
    exact (C73_refused hall hok m3 rfl []).1
  · rw [h2]
    exact (C62_writes hall hok).2

/-! ## C74 -/

/-- C74: the recorded number tells the four engines apart. -/
theorem C74_distinct {n n' : Str} (hn : n ∈ codeNames) (hn' : n' ∈ codeNames)
    (h : buildPoint percent ⟨.selectedEngine, [], n⟩ = buildPoint percent ⟨.selectedEngine, [], n'⟩) :
    n = n' := by
  have e : engineType n = engineType n' := by
    simpa [buildPoint] using h
  have all : ∀ n ∈ codeNames, ∀ n' ∈ codeNames, engineType n = engineType n' → n = n' := by decide +kernel
  exact all n hn n' hn' e

/-- C74: but before any engine is selected a tick sends a notice without a name, which is recorded as
    if the legacy engine had been selected. -/
theorem C74_none_is_legacy (percent : Percent (Nat × Nat)) :
    ∃ (ls : List Label) (w : World (Nat × Nat)), World.run exactCode (World.start exactCode []) ls = some w ∧
      w.isActive = false ∧
      w.seen.filterMap Msg.toStat ≠ [] ∧ ∀ m ∈ w.seen.filterMap Msg.toStat,
        buildPoint percent m = buildPoint percent ⟨.selectedEngine, [], "LegacyEngine".toList⟩ := by
  let ls : List Label := .tick codeNames :: List.replicate 8 .selector ++ [.mainRecv]
  have h : (World.run exactCode (World.start exactCode []) ls).isSome = true := by decide +kernel
  obtain ⟨w, hw⟩ := Option.isSome_iff_exists.mp h
  have e : (World.run exactCode (World.start exactCode []) ls).map (fun w => decide (w.isActive = false ∧
      w.seen = [.selected []])) = some true := by
    decide +kernel
  rw [hw] at e
  obtain ⟨h1, h2⟩ := of_decide_eq_true (Option.some.inj e)
  refine ⟨ls, w, hw, h1, ?_, ?_⟩
  · rw [h2]; exact List.cons_ne_nil _ _
  · rw [h2]
    intro m hm
    rw [List.mem_singleton.mp hm]
    rfl

end Gosstrak
