import Verif.Proofs.MonitoredExec

/-! # C107: the whole of `gosstrak-fc` with its statistics and the database -/
namespace Gosstrak
open World Watched
variable {F : Type} {env : FcEnv} {fl : Floats F} {tr : Translator} {percent : Percent F} {accept : Point F → Bool}
  {enabled : Bool} {sub : Subs} {E : Engines} {flag : Option Int} {s : Monitored F} {ls : List MonLabel}

/-- C107: statistics do not add behaviour: what the program does with them it can do without, for the same moves of
    the reader, so that C92 holds with them; and what the factory and the statistics do is as in C105. -/
theorem C107_within (hf : fl.Lawful)
    (h : MonRun env (Config.code fl) tr percent accept enabled (monStart (Config.code fl) sub E flag) ls s) :
    (∃ ls', ProgRun env (Config.code fl) tr (progStart (Config.code fl) sub E flag) ls' s.prog ∧
      fcMoves ls' = readerMoves ls) ∧
    Watched.Reaches (Config.code fl) percent accept enabled sub s.watched :=
  ⟨mon_prog hf (code_names fl) h, mon_watched hf (code_names fl) h⟩

/-- C107: with a database that answers the program is never stuck: as long as it has not ended it rests only when
    it would without statistics, and then every report has been handed over and every write has returned. -/
theorem C107_rest (hf : fl.Lawful)
    (h : MonRun env (Config.code fl) tr percent accept enabled (monStart (Config.code fl) sub E flag) ls s)
    (he : s.prog.fc.ended = none) (hd : s.stat.dead = false) :
    (∀ l t, l.Own → ¬ MonStep env (Config.code fl) tr percent accept enabled s l t) ↔
      (s.holding = none ∧ s.writing = false) ∧ World.AtRest (Config.code fl) s.prog.world ∧
      s.prog.fc.main = .reading ∧ s.prog.fc.listener = .waiting ∧ readMessage s.prog.fc.pending = none := by
  obtain ⟨ls', hr, -⟩ := mon_prog hf (code_names fl) h
  refine ⟨fun hrest => ?_, fun ⟨⟨h1, h2⟩, h3⟩ l t ho hs => ?_⟩
  · have no : ∀ l, (∀ k, l ≠ .world k) → l ≠ .refused → Watched.step (Config.code fl) percent accept enabled s.watched l = none := by
      intro l hl hl'
      cases e : Watched.step (Config.code fl) percent accept enabled s.watched l with
      | none => rfl
      | some r => exact (hrest (.watch l) _ hl' (.watch he hd hl e)).elim
    have hw : s.writing = false := by
      have := no .written nofun nofun
      cases e : s.writing with
      | false => rfl
      | true => simp [Watched.step, Monitored.watched, e] at this
    have hh : s.holding = none := by
      have := no .hand nofun nofun
      cases e : s.holding with
      | none => rfl
      | some m => simp [Watched.step, Monitored.watched, e, hw] at this
    have hq : s.prog.world.queue = [] := by
      have := no .take nofun nofun
      cases e : s.prog.world.queue with
      | nil => rfl
      | cons m q => simp [Watched.step, Monitored.watched, e, hh, World.step] at this
    refine ⟨⟨hh, hw⟩, (C92_rest hf hr he).mp fun l t ho hs => ?_⟩
    refine hrest (.prog l) _ ho (.prog hd (fun e => ?_) hs)
    subst e
    rcases progStep_world hs with ⟨-, hk⟩ | ⟨k, e, hk⟩
    · exact hk _ rfl
    · cases e
      simp [World.step, hq] at hk
  · cases hs with
    | prog hd hl hs => exact (C92_rest hf hr he).mpr h3 _ _ ho hs
    | @watch l r he hd hl hs =>
      cases l with
      | world k => exact hl k rfl
      | take => simp [Watched.step, Monitored.watched, h1, h3.1.queue] at hs
      | hand => simp [Watched.step, Monitored.watched, h1] at hs
      | written => simp [Watched.step, Monitored.watched, h2] at hs
      | refused => simp [Watched.step, Monitored.watched, h2] at hs

/-- C107, the code: a `Write` that fails ends the whole program. -/
theorem C107_refused (he : s.prog.fc.ended = none) (hd : s.stat.dead = false) (hw : s.writing = true) :
    ∃ t, MonStep env (Config.code fl) tr percent accept enabled s (.watch .refused) t ∧ t.prog = s.prog ∧
      ∀ l u, ¬ MonStep env (Config.code fl) tr percent accept enabled t l u := by
  refine ⟨_, .watch (r := { s.watched with stat := { s.stat with dead := true } }) he hd nofun ?_, rfl,
    fun l u h => ?_⟩
  · simp [Watched.step, Monitored.watched, hw]
  · have := (monStep_alive h).2
    cases this

section stall
variable {s : Nat → Monitored F} {l : Nat → MonLabel}
  (hf : fl.Lawful)
  (h : MonRun env (Config.code fl) tr percent accept true (monStart (Config.code fl) sub E flag) ls (s 0))
  (he : Monitored.Endless env (Config.code fl) tr percent accept true s l)
  (i : Nat) (hw : (s i).writing = true) (hno : ∀ j, i ≤ j → ¬ (l j).Answer)
  (ht : ∀ n ∈ codeNames, Monitored.Ticks s l n)
include hf h he

omit hf in
theorem mon_prefix (k : Nat) : MonRun env (Config.code fl) tr percent accept true
    (monStart (Config.code fl) sub E flag) (ls ++ (List.range k).map l) (s k) := by
  induction k with
  | zero => simpa using h
  | succ k ih =>
    have := MonRun.snoc ih (he k)
    rwa [List.append_assoc, ← List.map_singleton, ← List.map_append, ← List.range_succ] at this

include hw hno ht

/-- C107, the code: if a call of `Write` does not return, then in an endless execution in which the tickers of the
    generators are noticed no search begins or returns from some moment on. -/
theorem C107_silent : ∃ j, ∀ k, j ≤ k → ¬ (l k).Searching := by
  have hr := fun k => mon_watched hf (code_names fl) (mon_prefix h he k)
  obtain ⟨j, hj⟩ := watched_stalls hf (code_names fl) (fun k => (s k).watched) (fun k => (l k).watchOf)
    (fun k => ⟨C53_no_crash hf (code_names fl) (Watched.world_reaches (hr k)), (monStep_alive (he k)).2⟩)
    (fun k => monStep_watched (he k)) (hr 0) i hw
    (fun j hj k e ha => hno j hj <| by
      rcases ha with rfl | rfl
      · left
        rcases hl : l j with (_ | _ | _) | _ <;> rw [hl] at e <;> cases e
        rfl
      · right
        rcases hl : l j with (_ | _ | _) | _ <;> rw [hl] at e <;> cases e
        rfl)
    (fun n hn hx i => by
      obtain ⟨j, h1, h2⟩ := ht n hn hx i
      exact ⟨j, h1, by rw [h2]; rfl⟩)
  refine ⟨j, fun k hk hs => ?_⟩
  rcases hs with ⟨t, e⟩ | ⟨o, e⟩
  · exact hj k hk (.world (.track t)) (by rw [e]; rfl) (.inl ⟨t, rfl⟩)
  · exact hj k hk (.world (.search o)) (by rw [e]; rfl) (.inr ⟨o, rfl⟩)

/-- C107, the code: from some moment on no batch with tags is done any more. -/
theorem C107_deaf : ∃ j, ∀ k, j ≤ k → ∃ more, (s k).prog.fc.done = (s j).prog.fc.done ++ more ∧
    ∀ p ∈ more, p = ([], []) := by
  obtain ⟨j, hj⟩ := C107_silent hf h he i hw hno ht
  have move : ∀ k, j ≤ k → _ := fun k hk => monStep_listener (he k) fun t e => hj k hk (.inl ⟨t, e⟩)
  -- a batch with events to search stays where it is
  by_cases h1 : ∃ k b e es r, j ≤ k ∧ (s k).prog.fc.listener = .searching b (e :: es) r
  · obtain ⟨k, b, e, es, r, hk, hl⟩ := h1
    have stay : ∀ d, (s (k + d)).prog.fc.listener = .searching b (e :: es) r ∧
        (s (k + d)).prog.fc.done = (s k).prog.fc.done := by
      intro d
      induction d with
      | zero => exact ⟨hl, rfl⟩
      | succ d ih =>
        rcases move (k + d) (by omega) with ⟨a1, a2⟩ | ⟨b', a1, -⟩ | ⟨b', r', a1, -⟩
        · exact ⟨a1.trans ih.1, a2.trans ih.2⟩
        · rw [ih.1] at a1; cases a1
        · rw [ih.1] at a1; cases a1
    refine ⟨k, fun k' hk' => ⟨[], ?_, fun p hp => nomatch hp⟩⟩
    have := (stay (k' - k)).2
    rwa [show k + (k' - k) = k' by omega, ← List.append_nil (s k).prog.fc.done] at this
  · have h1' : ∀ k b e es r, j ≤ k → (s k).prog.fc.listener ≠ .searching b (e :: es) r :=
      fun k b e es r hk hl => h1 ⟨k, b, e, es, r, hk, hl⟩
    by_cases h2 : ∃ k, j ≤ k ∧ (s k).prog.fc.listener = .waiting
    · obtain ⟨k, hk, hl⟩ := h2
      have idle : ∀ d, ((s (k + d)).prog.fc.listener = .waiting ∨ (s (k + d)).prog.fc.listener = .searching [] [] []) ∧
          ∃ more, (s (k + d)).prog.fc.done = (s k).prog.fc.done ++ more ∧ ∀ p ∈ more, p = ([], []) := by
        intro d
        induction d with
        | zero => exact ⟨.inl hl, [], by simp, fun p hp => nomatch hp⟩
        | succ d ih =>
          obtain ⟨ih1, more, ih2, ih3⟩ := ih
          rcases move (k + d) (by omega) with ⟨a1, a2⟩ | ⟨b, a1, a2, a3⟩ | ⟨b, r, a1, a2, a3⟩
          · exact ⟨by rw [show k + (d + 1) = k + d + 1 by omega, a1]; exact ih1, more, a2.trans ih2, ih3⟩
          · refine ⟨.inr ?_, more, a3.trans ih2, ih3⟩
            cases b with
            | nil => exact a2
            | cons e es => exact absurd a2 (h1' (k + d + 1) _ _ _ _ (by omega))
          · have e : b = [] ∧ r = [] := by
              rcases ih1 with ih1 | ih1 <;> rw [ih1] at a1 <;> cases a1
              exact ⟨rfl, rfl⟩
            rw [e.1, e.2] at a3
            refine ⟨.inl a2, more ++ [([], [])], ?_, fun p hp => ?_⟩
            · rw [show k + (d + 1) = k + d + 1 by omega, a3, ih2, List.append_assoc]
            · rcases List.mem_append.mp hp with hp | hp
              · exact ih3 p hp
              · exact List.mem_singleton.mp hp
      refine ⟨k, fun k' hk' => ?_⟩
      have := (idle (k' - k)).2
      rwa [show k + (k' - k) = k' by omega] at this
    · have stay : ∀ d, (s (j + d)).prog.fc.done = (s j).prog.fc.done := by
        intro d
        induction d with
        | zero => rfl
        | succ d ih =>
          rcases move (j + d) (by omega) with ⟨a1, a2⟩ | ⟨b', a1, -⟩ | ⟨b', r', -, a1, -⟩
          · exact a2.trans ih
          · exact absurd ⟨j + d, by omega, a1⟩ h2
          · exact absurd ⟨j + d + 1, by omega, a1⟩ h2
      refine ⟨j, fun k' hk' => ⟨[], ?_, fun p hp => nomatch hp⟩⟩
      have := stay (k' - j)
      rwa [show j + (k' - j) = k' by omega, ← List.append_nil (s j).prog.fc.done] at this

/-- C107, the code: only so many reports with tags are ever taken from the connection, and no message behind them:
    the replies written are those owed for messages before the next. -/
theorem C107_unanswered : ∃ N, ∀ k, ∃ taken, taken <+: (llrpLoop env.headers (sentBy ls l k)).1 ∧
    (s k).prog.fc.written = repliesTo 0#32 taken ∧ tagReports env taken ≤ N := by
  obtain ⟨j, hj⟩ := C107_deaf hf h he i hw hno ht
  let tagged (d : List (List ReadEvent × List (Str × List Str))) : Nat :=
    ((d.map Prod.fst).filter fun b => !b.isEmpty).length
  have hdone : ∀ k, tagged (s k).prog.fc.done ≤ tagged (s j).prog.fc.done := by
    intro k
    rcases Nat.le_total j k with hk | hk
    · obtain ⟨more, e, hm⟩ := hj k hk
      have : (more.map Prod.fst).filter (fun b => !b.isEmpty) = [] := by
        rw [List.filter_eq_nil_iff]
        intro b hb
        obtain ⟨p, hp, rfl⟩ := List.mem_map.mp hb
        rw [hm p hp]
        simp
      simp only [tagged, e, List.map_append, List.filter_append, this, List.append_nil]
      exact Nat.le_refl _
    · have hp := prefix_chain (fun k => (s k).prog.fc.done) (fun k => (monStep_grows (he k)).2) k (j - k)
      rw [show k + (j - k) = j by omega] at hp
      obtain ⟨r, hr⟩ := hp
      simp only [tagged]
      rw [← hr, List.map_append, List.filter_append, List.length_append]
      omega
  refine ⟨tagged (s j).prog.fc.done + 2, fun k => ?_⟩
  have hrun := mon_prefix h he k
  obtain ⟨ls', h1, h2⟩ := mon_prog hf (code_names fl) hrun
  obtain ⟨-, ls'', t, h3, h4, -, h5, h6, h7, -, h8⟩ := C92_refines hf h1 (P := fun _ => True) ⟨.list, trivial⟩
    fun _ _ => trivial
  obtain ⟨taken, g1, g2, -, g3, -⟩ := C90_in_order h3
  refine ⟨taken, ?_, h5.symm.trans g2, ?_⟩
  · rw [h4, h2, ← bytesFrom_eq] at g1
    exact g1
  · rw [tagReports_eq (g3 (by rw [h7, (monStep_alive (he k)).1]; nofun)), h8]
    unfold Fc.batches
    rw [List.filter_append, List.length_append]
    have := hdone k
    have hu : (s k).prog.fc.underWay.length ≤ 2 := by
      unfold Fc.underWay
      cases (s k).prog.fc.listener <;> cases (s k).prog.fc.main <;> simp
    have := List.length_filter_le (fun b : List ReadEvent => !b.isEmpty) (s k).prog.fc.underWay
    simp only [tagged] at *
    omega

/-- C107, the code: if the reader goes on sending reports with tags, then from some moment on no reply is written any
    more, whatever else it sends. -/
theorem C107_mute (hmany : ∀ n, ∃ k, n < tagReports env (llrpLoop env.headers (sentBy ls l k)).1) :
    ∃ j, ∀ k, j ≤ k → (s k).prog.fc.written = (s j).prog.fc.written := by
  obtain ⟨N, hN⟩ := C107_unanswered hf h he i hw hno ht
  obtain ⟨k0, hk0⟩ := hmany N
  have more : ∀ k d, ∃ bs, sentBy ls l (k + d) = sentBy ls l k ++ bs := by
    intro k d
    refine ⟨bytesFrom (((List.range d).map (k + ·)).map l), ?_⟩
    unfold sentBy
    rw [List.range_add, List.map_append, ← List.append_assoc]
    unfold bytesFrom
    rw [List.flatMap_append]
  have hlen : ∀ k, (s k).prog.fc.written.length ≤ (llrpLoop env.headers (sentBy ls l k0)).1.length := by
    intro k
    obtain ⟨taken, h1, h2, h3⟩ := hN k
    have e : taken <+: (llrpLoop env.headers (sentBy ls l (max k k0))).1 ∧
        (llrpLoop env.headers (sentBy ls l k0)).1 <+: (llrpLoop env.headers (sentBy ls l (max k k0))).1 := by
      obtain ⟨b1, e1⟩ := more k (max k k0 - k)
      obtain ⟨b2, e2⟩ := more k0 (max k k0 - k0)
      rw [show k + (max k k0 - k) = max k k0 by omega] at e1
      rw [show k0 + (max k k0 - k0) = max k k0 by omega] at e2
      exact ⟨h1.trans (e1 ▸ llrpLoop_prefix ..), e2 ▸ llrpLoop_prefix ..⟩
    have hle : taken.length ≤ (llrpLoop env.headers (sentBy ls l k0)).1.length := by
      rcases Nat.le_total taken.length (llrpLoop env.headers (sentBy ls l k0)).1.length with hx | hx
      · exact hx
      · exfalso
        obtain ⟨r, hr⟩ := List.prefix_of_prefix_length_le e.2 e.1 hx
        rw [← hr] at h3
        unfold tagReports reportBodies at h3 hk0
        rw [List.filterMap_append, List.filter_append, List.length_append] at h3
        omega
    rw [h2]
    exact Nat.le_trans (List.length_filterMap_le ..) hle
  obtain ⟨j0, -, hj0⟩ := bounded_settles (fun k => (s k).prog.fc.written.length)
    (fun k => (monStep_grows (he k)).1.length_le) _ 0 (fun d => hlen (0 + d))
  refine ⟨j0, fun k hk => ?_⟩
  have hp := prefix_chain (fun k => (s k).prog.fc.written) (fun k => (monStep_grows (he k)).1) j0 (k - j0)
  rw [show j0 + (k - j0) = k by omega] at hp
  exact (hp.eq_of_length (hj0 k hk).symm).symm

end stall

/-! ## The executions exist -/

def statFile : List (List Str) :=
  [["http://a".toList, "urn:epc:pat:sgtin-96:3.0614141.812345".toList],
   ["http://b".toList, "urn:epc:pat:sgtin-96:3.0614141.812346".toList]]

/-- a report with one tag, and a keep-alive -/
def tagReport : LlrpMessage :=
  ⟨0x043D, 9, [48#8, 116#8, 37#8, 123#8, 247#8, 25#8, 78#8, 64#8, 0#8, 0#8, 26#8, 133#8]⟩
def keepAlive : LlrpMessage := ⟨0x043E, 10, []⟩

/-- reports with one tag of 96 bits -/
def statEnv : FcEnv := ⟨someHeaders, fun body => some [([48#8, 0#8], body)]⟩

/-- a report and a keep-alive behind it -/
def reportAndKeepAlive : List Byte := [tagReport, keepAlive].flatMap LlrpMessage.wire

/-- The list engine is ready; one report of the factory is being written, one is in hand, one is in the main channel;
    two reports of the reader have been read, the first is being searched and the search waits for the generator, the
    second waits for the search; each of the four generators waits for the listener. -/
def stalling : List MonOrder :=
  let n := "List".toList
  let f (l : Label) : MonOrder := .prog (.factory l)
  let report := [f (.genTick n), f (.recvTraffic n), f .listener, f (.genCompute n), f (.genReset n)]
  [f (.init n), f (.build n), f (.deploy n), f (.recvGenerated n), f .listener, f .listener, f .listener, f .listener,
    .watch .take, .watch .hand] ++ report ++ [.watch .take] ++ report ++
  [.prog (.fc (.arrive (tagReport.wire ++ tagReport.wire))), .prog (.fc .read), .prog (.fc .hand), .prog (.fc .read),
    f (.search codeNames), f .searchNext, f .searchNext, f .searchNext, f .searchNext, f .searchNext,
    .prog (.engine .list), f .readMatched, f .writeMatched] ++ codeNames.map fun n => f (.genTick n)

/-- the moves after that: the reader sends a report and a keep-alive, the listener takes a message from the main
    channel and puts it back -/
def stallMoves (i : Nat) : MonLabel :=
  match i % 3 with
  | 0 => .prog (.fc (.arrive reportAndKeepAlive))
  | 1 => .prog (.factory .recvMain)
  | _ => .prog (.factory .listener)

theorem stall_bytes (n : Nat) : bytesFrom ((List.range (3 * n)).map stallMoves) =
    (List.replicate n [tagReport, keepAlive]).flatten.flatMap LlrpMessage.wire := by
  induction n with
  | zero => rfl
  | succ n ih =>
    have e0 : stallMoves (3 * n) = .prog (.fc (.arrive reportAndKeepAlive)) := by
      unfold stallMoves; rw [show 3 * n % 3 = 0 by omega]; rfl
    have e1 : stallMoves (3 * n + 1) = .prog (.factory .recvMain) := by
      unfold stallMoves; rw [show (3 * n + 1) % 3 = 1 by omega]; rfl
    have e2 : stallMoves (3 * n + 2) = .prog (.factory .listener) := by
      unfold stallMoves; rw [show (3 * n + 2) % 3 = 2 by omega]; rfl
    have e : bytesFrom ((List.range (3 * (n + 1))).map stallMoves) =
        bytesFrom ((List.range (3 * n)).map stallMoves) ++ reportAndKeepAlive := by
      rw [show 3 * (n + 1) = 3 * n + 1 + 1 + 1 by omega, List.range_succ, List.range_succ, List.range_succ]
      simp only [List.map_append, List.map_cons, List.map_nil, e0, e1, e2]
      simp [bytesFrom]
    rw [e, ih, List.replicate_succ', List.flatten_append, List.flatMap_append]
    simp [reportAndKeepAlive]

theorem stall_answers (n : Nat) : Answers someHeaders (List.replicate n [tagReport, keepAlive]).flatten
    (List.replicate n [LlrpAction.report tagReport.body, .keepaliveAck]).flatten := by
  induction n with
  | zero => exact .nil
  | succ n ih =>
    rw [List.replicate_succ, List.replicate_succ, List.flatten_cons, List.flatten_cons]
    exact .cons (.report _ (by decide)) (.cons (.keepalive _ (by decide)) ih)

/-- C107: the executions `C107_mute` speaks of exist: the reader sends reports and keep-alives without end, and no
    keep-alive is ever answered. -/
theorem C107_waits : ∃ (sub : Subs) (E : Engines) (ls : List MonLabel) (s : Nat → Monitored (Nat × Nat))
    (l : Nat → MonLabel),
    (loadRecords statFile = some sub ∧ newEngines sampleBinutil.encoder sub sub sub sub = some E) ∧
    MonRun statEnv exactCode translate anyPercent (fun _ => true) true (monStart exactCode sub E none) ls (s 0) ∧
    Monitored.Endless statEnv exactCode translate anyPercent (fun _ => true) true s l ∧ (s 0).writing = true ∧
    (∀ j, ¬ (l j).Answer) ∧ (∀ n ∈ codeNames, Monitored.Ticks s l n) ∧
    (∀ n, ∃ k, n < tagReports statEnv (llrpLoop someHeaders (sentBy ls l k)).1) ∧
    (∀ n, ∃ k, n < (repliesTo 0#32 (llrpLoop someHeaders (sentBy ls l k)).1).length) ∧
    ∀ k, (s k).prog.fc.written = [] ∧ (s k).prog.fc.done = [] := by
  have h : ((loadRecords statFile).bind fun sub => (newEngines sampleBinutil.encoder sub sub sub sub).bind fun E =>
      (monExecs statEnv exactCode translate anyPercent (fun _ => true) true (monStart exactCode sub E none) stalling).map
      fun p => decide ((p.2.prog.world.listener = .idle ∧ p.2.prog.world.isActive = true) ∧
        (p.2.prog.world.queue = [.traffic "List".toList 0 0] ∧ p.2.prog.world.crashed = false) ∧
        (p.2.stat.dead = false ∧ p.2.writing = true ∧ p.2.prog.fc.ended = none) ∧
        (p.2.prog.fc.written = [] ∧ p.2.prog.fc.done = []) ∧
        bytesFrom p.1 = [tagReport, tagReport].flatMap LlrpMessage.wire ∧
        ∀ n ∈ codeNames, (p.2.prog.world.gens n).monitor ≠ .waiting)) = some true := by decide +kernel
  obtain ⟨sub, hsub, h⟩ := Option.bind_eq_some_iff.mp h
  obtain ⟨E, hE, h⟩ := Option.bind_eq_some_iff.mp h
  obtain ⟨⟨ls, s⟩, hx, he⟩ := Option.map_eq_some_iff.mp h
  obtain ⟨⟨e1, e2⟩, ⟨e3, e4⟩, ⟨e5, e6, e7⟩, ⟨e8, e9⟩, e10, e11⟩ := of_decide_eq_true he
  dsimp only at e1 e2 e3 e4 e5 e6 e7 e8 e9 e10 e11
  have hrun := monExecs_sound _ (.nil _) hx
  -- the states of the endless part
  let X (p : List Byte) : Monitored (Nat × Nat) :=
    { s with prog := { s.prog with fc := { s.prog.fc with pending := p } } }
  let Y (p : List Byte) : Monitored (Nat × Nat) :=
    { s with prog := { s.prog with
        fc := { s.prog.fc with pending := p },
        world := { s.prog.world with queue := [], listener := .send (.traffic "List".toList 0 0) } } }
  let st (i : Nat) : Monitored (Nat × Nat) :=
    (if i % 3 = 2 then Y else X) (s.prog.fc.pending ++ (List.replicate ((i + 2) / 3) reportAndKeepAlive).flatten)
  have hA : ∀ p, MonStep statEnv exactCode translate anyPercent (fun _ => true) true (X p)
      (.prog (.fc (.arrive reportAndKeepAlive))) (X (p ++ reportAndKeepAlive)) := fun p =>
    .prog e5 (by nofun) (.fc e2 (.arrive e7))
  have hcr : ∀ (q : Prog (Nat × Nat)) (w : World (Nat × Nat)), w.crashed = false →
      q.moved w = { q with world := w } := fun q w hw => moved_eq hw
  have hB : ∀ p, MonStep statEnv exactCode translate anyPercent (fun _ => true) true (X p)
      (.prog (.factory .recvMain)) (Y p) := by
    intro p
    have := MonStep.prog (percent := anyPercent) (accept := fun _ => true) (enabled := true) (s := X p) e5 (by nofun)
      (ProgStep.aside (env := statEnv) (c := exactCode) (tr := translate) (s := (X p).prog) (l := .recvMain)
        (w := (Y p).prog.world) e7 trivial (by simp [X, Y, World.step, e1, e3]))
    rw [hcr (X p).prog (Y p).prog.world e4] at this
    exact this
  have hC : ∀ p, MonStep statEnv exactCode translate anyPercent (fun _ => true) true (Y p)
      (.prog (.factory .listener)) (X p) := by
    intro p
    have hcap : 0 < exactCode.capacity := by decide
    have := MonStep.prog (percent := anyPercent) (accept := fun _ => true) (enabled := true) (s := Y p) e5 (by nofun)
      (ProgStep.aside (env := statEnv) (c := exactCode) (tr := translate) (s := (Y p).prog) (l := .listener)
        (w := (X p).prog.world) e7 trivial (by
          simp only [X, Y, World.step, World.listenerStep, World.push]
          generalize s.prog.world = w at *
          cases w
          simp_all))
    rw [hcr (Y p).prog (X p).prog.world e4] at this
    exact this
  have hm : ∀ i : Nat, i % 3 = 0 ∨ i % 3 = 1 ∨ i % 3 = 2 := fun i => by omega
  have fc_st : ∀ i, (st i).prog.fc = { s.prog.fc with pending := (st i).prog.fc.pending } := by
    intro i; simp only [st]; split <;> rfl
  have hX0 : st 0 = s := by
    show X (s.prog.fc.pending ++ _) = s
    rw [show (0 + 2) / 3 = 0 from rfl, List.replicate_zero, List.flatten_nil, List.append_nil]
  have hsent : ∀ n, llrpLoop someHeaders (sentBy ls stallMoves (3 * n)) =
      llrpLoop someHeaders (([tagReport, tagReport] ++ (List.replicate n [tagReport, keepAlive]).flatten).flatMap
        LlrpMessage.wire ++ []) := by
    intro n
    unfold sentBy
    have : ∀ a b : List MonLabel, bytesFrom (a ++ b) = bytesFrom a ++ bytesFrom b := fun a b => by simp [bytesFrom]
    rw [this, e10, stall_bytes, List.flatMap_append, List.append_nil]
  have hloop : ∀ n, (llrpLoop someHeaders (sentBy ls stallMoves (3 * n))).1 =
      [.report tagReport.body, .report tagReport.body] ++
        (List.replicate n [LlrpAction.report tagReport.body, .keepaliveAck]).flatten := by
    intro n
    have hd : someHeaders.Distinct := by unfold LlrpHeaders.Distinct; decide
    have ha : Answers someHeaders ([tagReport, tagReport] ++ (List.replicate n [tagReport, keepAlive]).flatten)
        ([.report tagReport.body, .report tagReport.body] ++
          (List.replicate n [LlrpAction.report tagReport.body, .keepaliveAck]).flatten) :=
      .cons (.report tagReport (by decide)) (.cons (.report tagReport (by decide)) (stall_answers n))
    rw [hsent, C60_aligned hd (fun m hm => ?_) ha, llrpLoop_none (s := []) (by decide +kernel)]
    · rw [List.append_nil]
    · have fits : tagReport.Fits ∧ keepAlive.Fits := by unfold LlrpMessage.Fits; decide +kernel
      have : m = tagReport ∨ m = keepAlive := by
        rcases List.mem_append.mp hm with hm | hm
        · simp at hm; exact .inl hm
        · obtain ⟨x, h1, h2⟩ := List.mem_flatten.mp hm
          rw [List.eq_of_mem_replicate h1] at h2
          simpa using h2
      rcases this with rfl | rfl
      · exact fits.1
      · exact fits.2
  have count : ∀ n, tagReports statEnv (List.replicate n [LlrpAction.report tagReport.body, .keepaliveAck]).flatten = n ∧
      (repliesTo 0#32 (List.replicate n [LlrpAction.report tagReport.body, .keepaliveAck]).flatten).length = n := by
    intro n
    induction n with
    | zero => exact ⟨rfl, rfl⟩
    | succ n ih =>
      rw [List.replicate_succ, List.flatten_cons]
      simp only [tagReports, reportBodies, repliesTo, List.filterMap_append, List.filter_append, List.length_append]
        at ih ⊢
      rw [ih.1, ih.2]
      exact ⟨Nat.add_comm 1 n, Nat.add_comm 1 n⟩
  refine ⟨sub, E, ls, st, stallMoves, ⟨hsub, hE⟩, by rw [hX0]; exact hrun, fun i => ?_, by rw [hX0]; exact e6, ?_, ?_,
    fun n => ⟨3 * n, ?_⟩, fun n => ⟨3 * (n + 1), ?_⟩, fun k => by rw [fc_st k]; exact ⟨e8, e9⟩⟩
  · simp only [st, stallMoves]
    rcases hm i with h | h | h
    · rw [h, show (i + 1) % 3 = 1 by omega, show (i + 1 + 2) / 3 = (i + 2) / 3 + 1 by omega, List.replicate_succ',
        List.flatten_append, ← List.append_assoc, List.flatten_singleton]
      exact hA _
    · rw [h, show (i + 1) % 3 = 2 by omega, show (i + 1 + 2) / 3 = (i + 2) / 3 by omega]
      exact hB _
    · rw [h, show (i + 1) % 3 = 0 by omega, show (i + 1 + 2) / 3 = (i + 2) / 3 by omega]
      exact hC _
  · intro j ha
    unfold stallMoves at ha
    rcases ha with ha | ha <;> split at ha <;> cases ha
  · intro n hn hx
    obtain ⟨j, -, hj⟩ := hx 0
    refine absurd ?_ (e11 n hn)
    have : (st j).prog.world.gens = s.prog.world.gens := by simp only [st]; split <;> rfl
    rw [← this]
    exact hj
  · rw [hloop]
    have := (count n).1
    simp only [tagReports, reportBodies, List.filterMap_append, List.filter_append, List.length_append] at this ⊢
    rw [this]
    have : 0 < (([LlrpAction.report tagReport.body, .report tagReport.body].filterMap fun a => match a with
      | .report body => some body
      | _ => none).filter (hasTags statEnv)).length := by decide +kernel
    exact Nat.lt_add_of_pos_left this
  · rw [hloop]
    have := (count (n + 1)).2
    simp only [repliesTo, List.filterMap_append, List.length_append] at this ⊢
    rw [this]
    omega

/-- all four engines get ready, and each report is written -/
def allWritten : List MonOrder := allReady.flatMap fun l =>
  if l = .mainRecv then [.watch .take, .watch .hand, .watch .written] else [.prog (.factory l)]

-- test: it ends at rest
example : ∃ sub E ls s, loadRecords statFile = some sub ∧ newEngines sampleBinutil.encoder sub sub sub sub = some E ∧
    MonRun statEnv exactCode translate anyPercent (fun _ => true) true (monStart exactCode sub E none) ls s ∧
    s.prog.fc.ended = none ∧ s.stat.dead = false ∧ s.stat.writes ≠ [] ∧
    ∀ l t, l.Own → ¬ MonStep statEnv exactCode translate anyPercent (fun _ => true) true s l t := by
  have h : ((loadRecords statFile).bind fun sub => (newEngines sampleBinutil.encoder sub sub sub sub).bind fun E =>
      (monExecs statEnv exactCode translate anyPercent (fun _ => true) true (monStart exactCode sub E none)
        allWritten).map fun p => decide ((p.2.prog.fc.ended = none ∧ p.2.stat.dead = false ∧ p.2.stat.writes ≠ []) ∧
          (p.2.holding = none ∧ p.2.writing = false) ∧ (p.2.prog.world.listener = .idle ∧
            p.2.prog.world.selector = .idle ∧ p.2.prog.world.searcher = .idle ∧ p.2.prog.world.queue = [] ∧
            (∀ n ∈ exactCode.names, (p.2.prog.world.gens n).builder = .done) ∧
            ∀ n ∈ exactCode.names, (p.2.prog.world.gens n).monitor = .waiting) ∧
          p.2.prog.fc.main = .reading ∧ p.2.prog.fc.listener = .waiting ∧
          (readMessage p.2.prog.fc.pending).isNone = true)) = some true := by decide +kernel
  obtain ⟨sub, hsub, h⟩ := Option.bind_eq_some_iff.mp h
  obtain ⟨E, hE, h⟩ := Option.bind_eq_some_iff.mp h
  obtain ⟨⟨ls, s⟩, hx, he⟩ := Option.map_eq_some_iff.mp h
  obtain ⟨⟨e1, e2, e3⟩, e4, ⟨a1, a2, a3, a4, a5, a6⟩, e6, e7, e8⟩ := of_decide_eq_true he
  have hrun := monExecs_sound _ (.nil _) hx
  exact ⟨sub, E, _, s, hsub, hE, hrun, e1, e2, e3, (C107_rest quotients_lawful hrun e1 e2).mpr
    ⟨e4, ⟨a1, a2, a3, a4, a5, a6⟩, e6, e7, Option.isNone_iff_eq_none.mp e8⟩⟩

-- test: the database refuses the first report
example : ((loadRecords statFile).bind fun sub => (newEngines sampleBinutil.encoder sub sub sub sub).bind fun E =>
    (monExecs statEnv exactCode translate anyPercent (fun _ => true) true (monStart exactCode sub E none)
      (stalling.take 10 ++ [.watch .refused])).map fun p => (p.2.stat.dead, p.2.stat.writes.length)) =
    some (true, 0) := by decide +kernel

end Gosstrak
