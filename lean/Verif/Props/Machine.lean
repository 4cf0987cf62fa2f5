import Verif.Proofs.Machine

/-! # C98: the state machine of a generator of engines -/
namespace Gosstrak
namespace FsmMachine

/-- C98: whoever calls which events with whatever arguments, the events that happen are those of a life: `init`,
    `deploy`, and then `update`, `rebuild`, `deploy` over and over. -/
theorem C98_order {ls : List FsmMove} {m : FsmMachine} (h : fsmStart.run ls = some m) :
    ∃ n, m.log.map Prod.fst <+: fsmLife n := by
  have hl := run_logOk h
  generalize m.fsm = f, m.log.map Prod.fst = l at *
  cases f with
  | unavailable => cases (show l = [] from hl); exact ⟨0, List.nil_prefix⟩
  | generating => cases (show l = [.init] from hl); exact ⟨0, [.deploy], rfl⟩
  | ready => obtain ⟨n, rfl⟩ := hl; exact ⟨n, List.prefix_rfl⟩
  | pending =>
    obtain ⟨n, rfl⟩ := hl
    exact ⟨n + 1, [.rebuild, .deploy], by rw [fsmLife_succ, List.append_assoc]; rfl⟩
  | rebuilding =>
    obtain ⟨n, rfl⟩ := hl
    exact ⟨n + 1, [.deploy], by rw [fsmLife_succ, List.append_assoc]; rfl⟩

/-- C98: as long as everybody calls `init` with subscriptions and `update` with a message, in any number and at
    any time: nothing panics; the engine, if there is one, is made of the subscriptions of the `init` that
    happened; in the state `ready` there is one; and only that one was ever announced. -/
theorem C98_engine {ls : List FsmMove} {m : FsmMachine} (hp : ∀ l ∈ ls, l.Proper) (h : fsmStart.run ls = some m) :
    m.crashed = false ∧
    (∀ s, m.engine = some s → ∃ rest, m.log.head? = some (.init, .subscriptions s :: rest)) ∧
    (m.fsm = .ready → ∃ s, m.engine = some s) ∧ ∀ s ∈ m.announced, m.engine = some s := by
  have hi := run_inv hp h
  refine ⟨hi.alive, fun s hs => inv_source hi hs, fun hf => ?_, hi.announced⟩
  have ht := hi.tokens
  rw [hf] at ht
  generalize m.engine = e, m.log = l, m.threads.filter token = ts at *
  cases ht
  exact ⟨_, rfl⟩

/-- C98: nothing that is called afterwards changes the engine: an update makes no other engine. -/
theorem C98_keeps {ls ls' : List FsmMove} {m m' : FsmMachine} (hp : ∀ l ∈ ls, l.Proper)
    (h : fsmStart.run ls = some m) (hp' : ∀ l ∈ ls', l.Proper) (h' : m.run ls' = some m') {s : Subs}
    (hs : m.engine = some s) : m'.engine = some s :=
  (run_induction (P := fun m => Inv m ∧ m.engine = some s) (fun ⟨h, he⟩ _ hq hs =>
    ⟨inv_step h hq hs, inv_keeps h hq hs he⟩) hp' ⟨run_inv hp h, hs⟩ h').2

/-- C98: the goroutines come to rest after a bounded number of moves, whatever was called. -/
theorem C98_ends {ls ls' : List FsmMove} {m m' : FsmMachine} (_ : fsmStart.run ls = some m)
    (ho : ∀ l ∈ ls', l.Own) (h' : m.run ls' = some m') : ls'.length ≤ 7 * m.threads.length + 1 := by
  refine Nat.le_trans (run_work ho h') (Nat.succ_le_succ ?_)
  unfold work
  generalize m.threads = ts
  induction ts with
  | nil => exact Nat.le_refl _
  | cons t ts ih =>
    rw [List.map_cons, List.sum_cons, List.length_cons]
    have : left t ≤ 7 := by
      cases t with
      | event e args => cases e <;> simp [left]
      | entered s args => cases s <;> simp [left]
      | _ => simp [left]
    omega

theorem rest_over {m : FsmMachine} (hr : m.AtRest) : ∀ t ∈ m.threads, t = .over := by
  intro t ht
  obtain ⟨i, hi⟩ := List.getElem?_of_mem ht
  have := hr i
  rw [step, hi, Option.bind_some] at this
  unfold move at this
  split at this
  · rfl
  all_goals first | cases this | (split at this <;> cases this)

/-- C98: at rest, the generator is ready if `init` was called, and its one engine was announced once and once
    more for each update that happened; otherwise it is unavailable and announced nothing. -/
theorem C98_rest {ls : List FsmMove} {m : FsmMachine} (hp : ∀ l ∈ ls, l.Proper) (h : fsmStart.run ls = some m)
    (hr : m.AtRest) :
    ((∃ args, .call .init args ∈ ls) → m.fsm = .ready ∧ ∃ s, m.engine = some s ∧
      m.announced = List.replicate (1 + (m.log.map Prod.fst).count .update) s) ∧
    ((∀ args, .call .init args ∉ ls) → m.fsm = .unavailable ∧ m.engine = none ∧ m.announced = []) := by
  have hi := run_inv hp h
  have hov := rest_over hr
  have htok : m.threads.filter token = [] := by
    rw [List.filter_eq_nil_iff]
    intro t ht
    rw [hov t ht]
    decide
  have hwait : m.threads.countP waiting = 0 := by
    rw [List.countP_eq_zero]
    intro t ht
    rw [hov t ht]
    decide
  have ht := hi.tokens
  rw [htok] at ht
  constructor
  · intro hc
    have hready : m.fsm = .ready ∧ ∃ s, m.engine = some s := by
      rcases wants_run (Or.inr hc) h with hw | ⟨a, ha⟩
      · generalize m.fsm = f, m.engine = e, m.log = l at *
        cases ht with
        | unavailable => exact absurd rfl hw
        | ready => exact ⟨rfl, _, rfl⟩
      · exact absurd (hov _ ha) (by simp)
    refine ⟨hready.1, ?_⟩
    obtain ⟨s, hs⟩ := hready.2
    refine ⟨s, hs, List.eq_replicate_iff.mpr ⟨?_, fun b hb => ?_⟩⟩
    · have hl := hi.logOk
      rw [hready.1] at hl
      obtain ⟨n, hn⟩ := hl
      have hcount := hi.count
      rw [hwait, Nat.add_zero, hn] at hcount
      rw [hcount, hn]
      clear hn hcount
      induction n with
      | zero => rfl
      | succ n ih =>
        rw [fsmLife_succ, List.count_append, List.count_append, ih]
        simp
        omega
    · have := hi.announced b hb
      rw [hs] at this
      exact (Option.some.inj this).symm
  · intro hc
    obtain ⟨-, hf, -⟩ := never_inits (fun l hl => ⟨hp l hl, fun args e => hc args (e ▸ hl)⟩) h
    have hl := hi.logOk
    rw [hf] at hl ht
    have hcount := hi.count
    rw [show m.log.map Prod.fst = [] from hl, hwait] at hcount
    refine ⟨hf, ?_, List.length_eq_zero_iff.mp (by simpa using hcount)⟩
    generalize m.engine = e, m.log = l at *
    cases ht
    rfl

/-- C98: an update of a ready engine, when nothing else is going on: the same engine is announced again. -/
theorem C98_update (m : FsmMachine) (hc : m.crashed = false) (hf : m.fsm = .ready) {s : Subs}
    (hs : m.engine = some s) (rest : List FsmArg) :
    m.run (.call .update (.message :: rest) :: List.replicate 7 (.go m.threads.length)) =
      some { m with
        threads := m.threads ++ [.over]
        log := m.log ++ [(.update, .message :: rest), (.rebuild, [.message]), (.deploy, [])]
        announced := m.announced ++ [s] } := by
  obtain ⟨fsm, engine, threads, log, announced, crashed⟩ := m
  dsimp only at hc hf hs
  subst hc hf hs
  simp [run, step, move, fsmDst, next, List.replicate_succ]

/-- C98: calls with arguments that do not suit the callbacks end the process: an update without a message, or
    with a nil one; `init` without subscriptions; and `deploy` before the engine is made. -/
theorem C98_wrong (m : FsmMachine) (hc : m.crashed = false) :
    (m.fsm = .ready → (∀ args, (∀ a rest, args = a :: rest → a ≠ .message ∧ a ≠ .nilMessage) →
        ∃ m', m.run (.call .update args :: List.replicate 2 (.go m.threads.length)) = some m' ∧ m'.crashed = true) ∧
      ∀ rest, ∃ m', m.run (.call .update (.nilMessage :: rest) :: List.replicate 4 (.go m.threads.length)) =
        some m' ∧ m'.crashed = true) ∧
    (m.fsm = .unavailable → ∀ args, (∀ s rest, args ≠ .subscriptions s :: rest) →
      ∃ m', m.run [.call .init args, .go m.threads.length, .go m.threads.length, .go (m.threads.length + 1)] =
        some m' ∧ m'.crashed = true) ∧
    (m.fsm = .generating → m.engine = none → ∀ args,
      ∃ m', m.run (.call .deploy args :: List.replicate 3 (.go m.threads.length)) = some m' ∧ m'.crashed = true) := by
  obtain ⟨fsm, engine, threads, log, announced, crashed⟩ := m
  dsimp only at hc
  subst hc
  refine ⟨fun hf => ⟨fun args ha => ?_, fun rest => ?_⟩, fun hf args ha => ?_, fun hf he args => ?_⟩
  · dsimp only at hf
    subst hf
    cases args with
    | nil => simp [run, step, move, fsmDst, next, crash, List.replicate_succ]
    | cons a rest =>
      obtain ⟨h1, h2⟩ := ha a rest rfl
      cases a with
      | message => exact absurd rfl h1
      | nilMessage => exact absurd rfl h2
      | _ => simp [run, step, move, fsmDst, next, crash, List.replicate_succ]
  · dsimp only at hf
    subst hf
    simp [run, step, move, fsmDst, next, crash, List.replicate_succ]
  · dsimp only at hf
    subst hf
    cases args with
    | nil => simp [run, step, move, fsmDst, next, crash]
    | cons a rest =>
      cases a with
      | subscriptions s => exact absurd rfl (ha s rest)
      | _ => simp [run, step, move, fsmDst, next, crash]
  · dsimp only at hf he
    subst hf he
    simp [run, step, move, fsmDst, next, crash, List.replicate_succ]

-- test: two calls of `init` and an update while the engine is announced; the second `init` is refused
private def machineMoves : List FsmMove :=
  [.call .init [.subscriptions [("u".toList, ["p".toList])]], .call .init [.subscriptions []], .go 0, .go 1, .go 0,
   .go 2, .go 2, .go 2, .call .update [.message], .go 3, .go 3, .go 3, .go 3, .go 3, .go 3, .go 3, .go 2]

example : (fsmStart.run machineMoves).map (fun m => (m.fsm, m.log.map Prod.fst, m.announced.length, m.crashed)) =
    some (.ready, [.init, .deploy, .update, .rebuild, .deploy], 2, false) := by decide +kernel

example : ∀ l ∈ machineMoves, l.Proper := by
  intro l hl
  simp only [machineMoves, List.mem_cons, List.not_mem_nil, or_false] at hl
  rcases hl with rfl | rfl | rfl | rfl | rfl | rfl | rfl | rfl | rfl | rfl | rfl | rfl | rfl | rfl | rfl | rfl | rfl <;>
    simp [FsmMove.Proper]

example : ((fsmStart.run machineMoves).map fun m => (List.range 4).all fun i => (m.step (.go i)).isNone) =
    some true := by decide +kernel

example : ((fsmStart.run (machineMoves.take 9)).bind fun m => m.run [.call .deploy [], .call .update []]).isSome =
    true := by decide +kernel

end FsmMachine
end Gosstrak
