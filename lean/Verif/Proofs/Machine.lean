import Verif.Spec.Machine

namespace Gosstrak
namespace FsmMachine

/-! ### order of the accepted events -/

/-- what the accepted events are in each state -/
def LogOk (s : Fsm) (l : List FsmEvent) : Prop :=
  match s with
  | .unavailable => l = []
  | .generating => l = [.init]
  | .ready => ∃ n, l = fsmLife n
  | .pending => ∃ n, l = fsmLife n ++ [.update]
  | .rebuilding => ∃ n, l = fsmLife n ++ [.update, .rebuild]

theorem fsmLife_succ (n : Nat) : fsmLife (n + 1) = fsmLife n ++ [.update, .rebuild, .deploy] := by
  unfold fsmLife
  rw [List.replicate_succ', List.flatten_append, List.append_assoc]
  rfl

theorem logOk_dst {e : FsmEvent} {s t : Fsm} {l : List FsmEvent} (h : LogOk s l) (hd : fsmDst e s = some t) :
    LogOk t (l ++ [e]) := by
  cases e <;> cases s <;> simp only [fsmDst, Option.some.injEq, reduceCtorEq] at hd <;> subst hd
  · simp only [LogOk] at h ⊢; rw [h]; rfl
  · simp only [LogOk] at h ⊢; rw [h]; exact ⟨0, rfl⟩
  · simp only [LogOk] at h ⊢
    obtain ⟨n, rfl⟩ := h
    exact ⟨n + 1, by rw [fsmLife_succ, List.append_assoc]; rfl⟩
  · exact h.imp fun n e => by rw [e]
  · simp only [LogOk] at h ⊢
    obtain ⟨n, rfl⟩ := h
    exact ⟨n, by rw [List.append_assoc]; rfl⟩

/-- what a move does to state and log -/
theorem move_log {m m' : FsmMachine} {i : Nat} {t : FsmThread} (h : m.move i t = some m') :
    (m'.fsm = m.fsm ∧ m'.log = m.log) ∨
      ∃ e args s, t = .event e args ∧ fsmDst e m.fsm = some s ∧ m'.fsm = s ∧ m'.log = m.log ++ [(e, args)] := by
  unfold move at h
  split at h
  · cases h
  · split at h
    · cases h; exact Or.inl ⟨rfl, rfl⟩
    · cases h; rename_i h; exact Or.inr ⟨_, _, _, rfl, h, rfl, rfl⟩
  · cases h; exact Or.inl ⟨rfl, rfl⟩
  · cases h; exact Or.inl ⟨rfl, rfl⟩
  · split at h <;> cases h <;> exact Or.inl ⟨rfl, rfl⟩
  · split at h <;> cases h <;> exact Or.inl ⟨rfl, rfl⟩
  · cases h; exact Or.inl ⟨rfl, rfl⟩
  · split at h <;> cases h <;> exact Or.inl ⟨rfl, rfl⟩
  · split at h <;> cases h <;> exact Or.inl ⟨rfl, rfl⟩

/-- induction over runs -/
theorem run_induction {P : FsmMachine → Prop} {Q : FsmMove → Prop}
    (hstep : ∀ {m m' l}, P m → m.crashed = false → Q l → m.step l = some m' → P m') :
    ∀ {ls : List FsmMove} {m m' : FsmMachine}, (∀ l ∈ ls, Q l) → P m → m.run ls = some m' → P m'
  | [], m, m', _, h, hr => by cases hr; exact h
  | l :: ls, m, m', hq, h, hr => by
    rw [run] at hr
    split at hr
    · cases hr
    · rename_i hc
      obtain ⟨m1, h1, h2⟩ := Option.bind_eq_some_iff.mp hr
      exact run_induction hstep (fun l hl => hq l (List.mem_cons_of_mem _ hl))
        (hstep h (by simpa using hc) (hq l (List.mem_cons_self ..)) h1) h2

theorem run_logOk {ls : List FsmMove} {m : FsmMachine} (h : fsmStart.run ls = some m) :
    LogOk m.fsm (m.log.map Prod.fst) := by
  refine run_induction (P := fun m => LogOk m.fsm (m.log.map Prod.fst)) (Q := fun _ => True) ?_ (fun _ _ => trivial)
    (show LogOk .unavailable [] from rfl) h
  intro m m' l ih _ _ hs
  cases l with
  | call e args => cases hs; exact ih
  | go i =>
    obtain ⟨t, -, ht⟩ := Option.bind_eq_some_iff.mp hs
    rcases move_log ht with ⟨h1, h2⟩ | ⟨e, args, s, -, h1, h2, h3⟩
    · rw [h1, h2]; exact ih
    · rw [h2, h3, List.map_append]; exact logOk_dst ih h1

/-! ### runs without wrong calls -/

/-- the goroutines on which the next state depends -/
def token : FsmThread → Bool
  | .event .deploy _ | .event .rebuild _ | .entered .generating _ | .entered .pending _
  | .entered .rebuilding _ | .construct _ => true
  | _ => false

/-- the goroutines that are about to announce the engine -/
def waiting : FsmThread → Bool
  | .entered .ready _ | .announce => true
  | _ => false

/-- the goroutines that may be there in any number -/
def Good : FsmThread → Prop
  | .event .init args => ∃ s rest, args = .subscriptions s :: rest
  | .event .update args => ∃ rest, args = .message :: rest
  | .event .other _ | .entered .unavailable _ => False
  | _ => True

/-- how the state, the engine, the log and the goroutines of the first kind belong together -/
inductive Tokens : Fsm → Option Subs → List (FsmEvent × List FsmArg) → List FsmThread → Prop
  | unavailable {log} : Tokens .unavailable none log []
  | entered {s r} : Tokens .generating none [(.init, .subscriptions s :: r)]
      [.entered .generating (.subscriptions s :: r)]
  | construct {s r} : Tokens .generating none [(.init, .subscriptions s :: r)] [.construct (.subscriptions s :: r)]
  | built {s r} : Tokens .generating (some s) [(.init, .subscriptions s :: r)] [.event .deploy []]
  | ready {s r log} : log.head? = some (.init, .subscriptions s :: r) → Tokens .ready (some s) log []
  | pending {s r log r'} : log.head? = some (.init, .subscriptions s :: r) →
      Tokens .pending (some s) log [.entered .pending (.message :: r')]
  | rebuild {s r log} : log.head? = some (.init, .subscriptions s :: r) →
      Tokens .pending (some s) log [.event .rebuild [.message]]
  | rebuilding {s r log} : log.head? = some (.init, .subscriptions s :: r) →
      Tokens .rebuilding (some s) log [.entered .rebuilding [.message]]
  | rebuilt {s r log} : log.head? = some (.init, .subscriptions s :: r) →
      Tokens .rebuilding (some s) log [.event .deploy []]

structure Inv (m : FsmMachine) : Prop where
  alive : m.crashed = false
  logOk : LogOk m.fsm (m.log.map Prod.fst)
  good : ∀ t ∈ m.threads, Good t
  tokens : Tokens m.fsm m.engine m.log (m.threads.filter token)
  announced : ∀ s ∈ m.announced, m.engine = some s
  count : m.announced.length + m.threads.countP waiting = (m.log.map Prod.fst).count .deploy

theorem inv_start : Inv fsmStart :=
  ⟨rfl, rfl, by simp [fsmStart], Tokens.unavailable, by simp [fsmStart], rfl⟩

theorem tokens_engine {s : Fsm} {e : Option Subs} {log : List (FsmEvent × List FsmArg)} {ts : List FsmThread}
    (h : Tokens s e log ts) (hl : LogOk s (log.map Prod.fst)) (hd : 0 < (log.map Prod.fst).count .deploy) :
    ∃ s, e = some s := by
  cases h <;> first | exact ⟨_, rfl⟩ | skip
  · simp only [LogOk] at hl; rw [hl] at hd; cases hd
  · simp at hd
  · simp at hd

/-- a list with one element at the place of another -/
theorem split_at {α : Type} {l : List α} {i : Nat} {t : α} (h : l[i]? = some t) :
    ∃ a b, l = a ++ t :: b ∧ ∀ t', l.set i t' = a ++ t' :: b := by
  obtain ⟨hi, rfl⟩ := List.getElem?_eq_some_iff.mp h
  refine ⟨l.take i, l.drop (i + 1), ?_, fun t' => ?_⟩
  · rw [List.getElem_cons_drop, List.take_append_drop]
  · rw [List.set_eq_take_append_cons_drop, if_pos hi]

theorem filter_one {α : Type} {p : α → Bool} {a b : List α} {t q : α} (ht : p t = true)
    (h : (a ++ t :: b).filter p = [q]) : a.filter p = [] ∧ b.filter p = [] ∧ t = q := by
  rw [List.filter_append, List.filter_cons_of_pos ht] at h
  cases ha : a.filter p with
  | nil =>
    rw [ha, List.nil_append] at h
    injection h with h1 h2
    exact ⟨rfl, h2, h1⟩
  | cons x l => rw [ha] at h; simp at h

/-- a goroutine without part in the next state that goes on in such a way -/
theorem inv_plain {m : FsmMachine} {i : Nat} {t t' : FsmThread} (h : Inv m) (hi : m.threads[i]? = some t)
    (h1 : token t = false) (h2 : token t' = false) (h3 : waiting t' = waiting t) (h4 : Good t') :
    Inv (m.next i t') := by
  obtain ⟨a, b, e1, e2⟩ := split_at hi
  have hg := h.good
  have ht := h.tokens
  have hc := h.count
  rw [e1] at hg ht hc
  refine ⟨h.alive, h.logOk, fun u hu => ?_, ?_, h.announced, ?_⟩
  · have hu' : u ∈ m.threads.set i t' := hu
    rw [e2] at hu'
    rcases List.mem_append.mp hu' with hu' | hu'
    · exact hg u (List.mem_append_left _ hu')
    · rcases List.mem_cons.mp hu' with rfl | hu'
      · exact h4
      · exact hg u (List.mem_append_right _ (List.mem_cons_of_mem _ hu'))
  · show Tokens m.fsm m.engine m.log ((m.threads.set i t').filter token)
    rw [e2, List.filter_append, List.filter_cons_of_neg (by simp [h2])]
    rw [List.filter_append, List.filter_cons_of_neg (by simp [h1])] at ht
    exact ht
  · show m.announced.length + (m.threads.set i t').countP waiting = _
    rw [e2, List.countP_append, List.countP_cons, h3]
    rw [List.countP_append, List.countP_cons] at hc
    exact hc

/-- the goroutine on which the next state depends goes on -/
theorem inv_token {m m' : FsmMachine} {i : Nat} {t t' : FsmThread} {new : List FsmThread} (h : Inv m)
    (hi : m.threads[i]? = some t) (h1 : token t = true)
    (hth : m'.threads = m.threads.set i t' ++ new)
    (hal : m'.crashed = m.crashed) (hlog : LogOk m'.fsm (m'.log.map Prod.fst))
    (hgood : ∀ u ∈ t' :: new, Good u)
    (hann : ∀ s ∈ m.announced, m'.engine = some s) (hann' : m'.announced = m.announced)
    (hcount : (t' :: new).countP waiting + (m.log.map Prod.fst).count .deploy =
      (m'.log.map Prod.fst).count .deploy)
    (htok : m.threads.filter token = [t] → Tokens m'.fsm m'.engine m'.log ((t' :: new).filter token)) : Inv m' := by
  obtain ⟨a, b, e1, e2⟩ := split_at hi
  have hg := h.good
  have hc := h.count
  have ht := h.tokens
  rw [e1] at hg hc
  have hw : waiting t = false := by
    cases t with
    | entered s args => cases s <;> first | rfl | cases h1
    | announce => cases h1
    | _ => rfl
  have hone : a.filter token = [] ∧ b.filter token = [] ∧ m.threads.filter token = [t] := by
    have : ∃ q, m.threads.filter token = [q] := by
      cases e : m.threads.filter token with
      | nil =>
        have : t ∈ m.threads.filter token := List.mem_filter.mpr ⟨List.mem_of_getElem? hi, h1⟩
        rw [e] at this; cases this
      | cons q l =>
        rw [e] at ht
        cases l with
        | nil => exact ⟨q, rfl⟩
        | cons _ _ => exact absurd ht (by generalize m.fsm = x, m.engine = y, m.log = z; intro hh; cases hh)
    obtain ⟨q, hq⟩ := this
    have hq' := hq
    rw [e1] at hq'
    obtain ⟨h2, h3, rfl⟩ := filter_one h1 hq'
    exact ⟨h2, h3, hq⟩
  obtain ⟨f1, f2, f3⟩ := hone
  refine ⟨by rw [hal]; exact h.alive, hlog, fun u hu => ?_, ?_, ?_, ?_⟩
  · rw [hth, e2] at hu
    simp only [List.mem_append, List.mem_cons] at hu
    rcases hu with (hu | rfl | hu) | hu
    · exact hg u (List.mem_append_left _ hu)
    · exact hgood _ (List.mem_cons_self ..)
    · exact hg u (List.mem_append_right _ (List.mem_cons_of_mem _ hu))
    · exact hgood _ (List.mem_cons_of_mem _ hu)
  · have : m'.threads.filter token = (t' :: new).filter token := by
      rw [hth, e2, List.filter_append, List.filter_append, f1, List.nil_append]
      cases htt : token t'
      · rw [List.filter_cons_of_neg (by simp [htt]), List.filter_cons_of_neg (by simp [htt]), f2]; rfl
      · rw [List.filter_cons_of_pos htt, List.filter_cons_of_pos htt, f2]; rfl
    rw [this]
    exact htok f3
  · rw [hann']; exact hann
  · rw [hann', ← hcount, ← hc, hth, e2]
    simp only [List.countP_append, List.countP_cons, hw]
    simp
    omega

/-- an event leads away from a state at which nothing happened -/
theorem inv_leave {m : FsmMachine} {i : Nat} {e : FsmEvent} {args : List FsmArg} {s : Fsm} (h : Inv m)
    (hi : m.threads[i]? = some (.event e args)) (he : e ≠ .deploy) (h1 : token (.event e args) = false)
    (hs : s ≠ .ready) (hu : s ≠ .unavailable) (h2 : token (.entered s args) = true)
    (hn : m.threads.filter token = []) (hlog : LogOk s ((m.log ++ [(e, args)]).map Prod.fst))
    (htok : Tokens s m.engine (m.log ++ [(e, args)]) [.entered s args]) :
    Inv { m.next i (.entered s args) with fsm := s, log := m.log ++ [(e, args)] } := by
  obtain ⟨a, b, e1, e2⟩ := split_at hi
  have hg := h.good
  have hc := h.count
  rw [e1] at hg hc
  refine ⟨h.alive, hlog, fun u hu => ?_, ?_, h.announced, ?_⟩
  · have hu' : u ∈ m.threads.set i (.entered s args) := hu
    rw [e2] at hu'
    rcases List.mem_append.mp hu' with hu' | hu'
    · exact hg u (List.mem_append_left _ hu')
    · rcases List.mem_cons.mp hu' with rfl | hu'
      · cases s <;> first | trivial | exact absurd rfl ‹_›
      · exact hg u (List.mem_append_right _ (List.mem_cons_of_mem _ hu'))
  · show Tokens s m.engine (m.log ++ [(e, args)]) ((m.threads.set i (.entered s args)).filter token)
    rw [e1, List.filter_append, List.filter_cons_of_neg (by simp [h1])] at hn
    obtain ⟨n1, n2⟩ := List.append_eq_nil_iff.mp hn
    rw [e2, List.filter_append, List.filter_cons_of_pos h2, n1, n2]
    exact htok
  · show m.announced.length + (m.threads.set i (.entered s args)).countP waiting =
      ((m.log ++ [(e, args)]).map Prod.fst).count .deploy
    have w1 : waiting (.event e args) = false := rfl
    have w2 : waiting (.entered s args) = false := by cases s <;> first | rfl | exact absurd rfl hs
    rw [e2, List.map_append, List.count_append, ← hc]
    simp only [List.countP_append, List.countP_cons, w1, w2]
    have : List.count FsmEvent.deploy (List.map Prod.fst [(e, args)]) = 0 := by
      simp [he]
    rw [this]
    rfl

theorem inv_step {m m' : FsmMachine} {l : FsmMove} (h : Inv m) (hp : l.Proper) (hs : m.step l = some m') : Inv m' := by
  cases l with
  | call e args =>
    cases hs
    have hw : waiting (.event e args) = false := rfl
    have htk : token (.event e args) = false := by
      rcases hp with ⟨rfl, -⟩ | ⟨rfl, -⟩ <;> rfl
    refine ⟨h.alive, h.logOk, fun t ht => ?_, ?_, h.announced, ?_⟩
    · rcases List.mem_append.mp ht with ht | ht
      · exact h.good t ht
      · cases List.mem_singleton.mp ht
        rcases hp with ⟨rfl, h⟩ | ⟨rfl, h⟩ <;> exact h
    · show Tokens m.fsm m.engine m.log ((m.threads ++ [FsmThread.event e args]).filter token)
      rw [List.filter_append, List.filter_cons_of_neg (by simp [htk])]
      simpa using h.tokens
    · show m.announced.length + (m.threads ++ [FsmThread.event e args]).countP waiting = _
      rw [List.countP_append, List.countP_cons, hw]
      simpa using h.count
  | go i =>
    obtain ⟨t, hi, ht⟩ := Option.bind_eq_some_iff.mp hs
    have hgood := h.good t (List.mem_of_getElem? hi)
    have hlog' : LogOk m'.fsm (m'.log.map Prod.fst) := by
      rcases move_log ht with ⟨h1, h2⟩ | ⟨e, args, s, -, h1, h2, h3⟩
      · rw [h1, h2]; exact h.logOk
      · rw [h2, h3, List.map_append]; exact logOk_dst h.logOk h1
    have htok := h.tokens
    have hlog := h.logOk
    have hmem : token t = true → t ∈ m.threads.filter token := fun h1 =>
      List.mem_filter.mpr ⟨List.mem_of_getElem? hi, h1⟩
    obtain ⟨fsm, engine, threads, log, announced, crashed⟩ := m
    dsimp only at *
    generalize hts : threads.filter token = ts at *
    cases t with
    | over => cases ht
    | announce =>
      unfold move at ht
      dsimp only at ht
      obtain ⟨s, rfl⟩ := tokens_engine htok hlog (by
        have := h.count
        dsimp only at this
        rw [← this]
        have : 0 < threads.countP waiting := List.countP_pos_iff.mpr ⟨_, List.mem_of_getElem? hi, rfl⟩
        omega)
      cases ht
      obtain ⟨a, b, e1, e2⟩ := split_at hi
      have hg := h.good
      have hc := h.count
      dsimp only at hg hc
      rw [e1] at hg hc
      refine ⟨h.alive, h.logOk, fun u hu => ?_, ?_, fun u hu => ?_, ?_⟩
      · have hu' : u ∈ threads.set i .over := hu
        rw [e2] at hu'
        rcases List.mem_append.mp hu' with hu' | hu'
        · exact hg u (List.mem_append_left _ hu')
        · rcases List.mem_cons.mp hu' with rfl | hu'
          · exact trivial
          · exact hg u (List.mem_append_right _ (List.mem_cons_of_mem _ hu'))
      · show Tokens fsm (some s) log ((threads.set i .over).filter token)
        rw [e1, List.filter_append, List.filter_cons_of_neg (by decide)] at hts
        rw [e2, List.filter_append, List.filter_cons_of_neg (by decide), hts]
        exact htok
      · rcases List.mem_append.mp hu with hu | hu
        · exact h.announced u hu
        · cases List.mem_singleton.mp hu; rfl
      · show (announced ++ [s]).length + (threads.set i .over).countP waiting = (log.map Prod.fst).count .deploy
        rw [← hc, e2]
        simp [List.countP_append, List.countP_cons, waiting]
        omega
    | construct args =>
      have hm := hmem rfl
      cases htok with
      | @construct s r =>
        cases List.mem_singleton.mp hm
        cases ht
        exact inv_token (t' := .event .deploy []) (new := []) h hi rfl (by simp [next]) rfl hlog' (by simp [Good])
          (fun u hu => by have := h.announced u hu; cases this) rfl (by simp [waiting, next])
          fun _ => Tokens.built
      | _ => simp at hm
    | entered s args =>
      cases s with
      | unavailable => exact absurd hgood (by simp [Good])
      | generating =>
        have hm := hmem rfl
        cases htok with
        | @entered s r =>
          cases List.mem_singleton.mp hm
          cases ht
          exact inv_token (t' := .over) (new := [.construct (.subscriptions s :: r)]) h hi rfl rfl rfl hlog'
            (by simp [Good]) h.announced rfl (by simp [waiting]) fun _ => Tokens.construct
        | _ => simp at hm
      | ready =>
        cases ht
        exact inv_plain h hi rfl rfl rfl trivial
      | pending =>
        have hm := hmem rfl
        cases htok with
        | @pending s r log r' hl =>
          cases List.mem_singleton.mp hm
          cases ht
          exact inv_token (t' := .event .rebuild [.message]) (new := []) h hi rfl (by simp [next]) rfl hlog'
            (by simp [Good]) h.announced rfl (by simp [waiting, next]) fun _ => Tokens.rebuild hl
        | _ => simp at hm
      | rebuilding =>
        have hm := hmem rfl
        cases htok with
        | @rebuilding s r log hl =>
          cases List.mem_singleton.mp hm
          cases ht
          exact inv_token (t' := .event .deploy []) (new := []) h hi rfl (by simp [next]) rfl hlog'
            (by simp [Good]) h.announced rfl (by simp [waiting, next]) fun _ => Tokens.rebuilt hl
        | _ => simp at hm
    | event e args =>
      cases e with
      | other => exact absurd hgood (by simp [Good])
      | deploy =>
        have hm := hmem rfl
        cases htok with
        | @built s r =>
          cases List.mem_singleton.mp hm
          cases ht
          exact inv_token (t' := .entered .ready []) (new := []) h hi rfl (by simp [next]) rfl hlog'
            (by simp [Good]) h.announced rfl (by simp [waiting]) fun _ => Tokens.ready rfl
        | @rebuilt s r log hl =>
          cases List.mem_singleton.mp hm
          cases ht
          exact inv_token (t' := .entered .ready []) (new := []) h hi rfl (by simp [next]) rfl hlog'
            (by simp [Good]) h.announced rfl (by simp [waiting]; omega) fun _ => Tokens.ready (r := r) (by
              show (log ++ _).head? = _
              rw [List.head?_append, hl]; rfl)
        | _ => simp at hm
      | rebuild =>
        have hm := hmem rfl
        cases htok with
        | @rebuild s r log hl =>
          cases List.mem_singleton.mp hm
          cases ht
          exact inv_token (t' := .entered .rebuilding [.message]) (new := []) h hi rfl (by simp [next]) rfl hlog'
            (by simp [Good]) h.announced rfl (by simp [waiting]) fun _ => Tokens.rebuilding (r := r) (by
              show (log ++ _).head? = _
              rw [List.head?_append, hl]; rfl)
        | _ => simp at hm
      | init =>
        obtain ⟨s, r, rfl⟩ := hgood
        cases fsm with
        | unavailable =>
          cases ht
          cases htok
          have : log = [] := by simpa [LogOk] using hlog
          subst this
          exact inv_leave h hi (by decide) rfl (by decide) (by decide) rfl hts hlog' Tokens.entered
        | _ => cases ht; exact inv_plain h hi rfl rfl rfl trivial
      | update =>
        obtain ⟨r, rfl⟩ := hgood
        cases fsm with
        | ready =>
          cases ht
          cases htok with
          | @ready s r' _ hl =>
            exact inv_leave h hi (by decide) rfl (by decide) (by decide) rfl hts hlog'
              (Tokens.pending (r := r') (by rw [List.head?_append, hl]; rfl))
        | _ => cases ht; exact inv_plain h hi rfl rfl rfl trivial

theorem run_inv {ls : List FsmMove} {m : FsmMachine} (hp : ∀ l ∈ ls, l.Proper) (h : fsmStart.run ls = some m) :
    Inv m :=
  run_induction (fun h _ hq hs => inv_step h hq hs) hp inv_start h

/-! ### every goroutine comes to an end -/

/-- how many moves are left to a goroutine -/
def left : FsmThread → Nat
  | .over => 0
  | .announce => 1
  | .entered .unavailable _ => 1
  | .entered .ready _ => 2
  | .entered .generating _ => 5
  | .entered .rebuilding _ => 4
  | .entered .pending _ => 6
  | .construct _ => 4
  | .event .deploy _ => 3
  | .event .rebuild _ => 5
  | .event .init _ => 6
  | .event .update _ => 7
  | .event .other _ => 1

/-- how many moves are left to all goroutines -/
def work (m : FsmMachine) : Nat := (m.threads.map left).sum

theorem work_step {m m' : FsmMachine} {i : Nat} (h : m.step (.go i) = some m') :
    m'.crashed = true ∨ m'.work < m.work := by
  obtain ⟨t, hi, ht⟩ := Option.bind_eq_some_iff.mp h
  obtain ⟨a, b, e1, e2⟩ := split_at hi
  have key : ∀ (t' : FsmThread) (new : List FsmThread), m'.threads = m.threads.set i t' ++ new →
      left t' + (new.map left).sum < left t → m'.work < m.work := by
    intro t' new h1 h2
    unfold work
    rw [h1, e2, e1]
    simp only [List.map_append, List.map_cons, List.sum_append, List.sum_cons]
    omega
  have plain : ∀ (t' : FsmThread), m'.threads = m.threads.set i t' → left t' < left t → m'.work < m.work :=
    fun t' h1 h2 => key t' [] (by rw [h1, List.append_nil]) (by simpa using h2)
  unfold move at ht
  split at ht
  · cases ht
  · rename_i e args
    split at ht
    · cases ht; exact Or.inr (plain .over rfl (by cases e <;> simp [left]))
    · rename_i s hd
      cases ht
      refine Or.inr (plain (.entered s args) rfl ?_)
      generalize m.fsm = f at hd
      cases e <;> cases f <;> simp only [fsmDst, Option.some.injEq, reduceCtorEq] at hd <;> subst hd <;>
        simp [left]
  · cases ht
    exact Or.inr (key .over _ rfl (by simp [left]))
  · cases ht; exact Or.inr (plain .announce rfl (by simp [left]))
  · split at ht <;> cases ht
    · exact Or.inr (plain _ rfl (by simp [left]))
    · exact Or.inr (plain _ rfl (by simp [left]))
    · exact Or.inl rfl
  · split at ht <;> cases ht
    · exact Or.inr (plain _ rfl (by simp [left]))
    · exact Or.inl rfl
  · cases ht; exact Or.inr (plain .over rfl (by simp [left]))
  · split at ht <;> cases ht
    · exact Or.inr (plain _ rfl (by simp [left]))
    · exact Or.inl rfl
  · split at ht <;> cases ht
    · exact Or.inl rfl
    · exact Or.inr (plain .over rfl (by simp [left]))

theorem run_work : ∀ {ls : List FsmMove} {m m' : FsmMachine}, (∀ l ∈ ls, l.Own) → m.run ls = some m' →
    ls.length ≤ m.work + 1
  | [], _, _, _, _ => Nat.zero_le _
  | l :: ls, m, m', ho, hr => by
    rw [run] at hr
    split at hr
    · cases hr
    · obtain ⟨m1, h1, h2⟩ := Option.bind_eq_some_iff.mp hr
      cases l with
      | call e args => exact absurd (ho _ (List.mem_cons_self ..)) (by simp [FsmMove.Own])
      | go i =>
        rcases work_step h1 with hc | hw
        · cases ls with
          | nil => simp
          | cons l ls => rw [run, if_pos hc] at h2; cases h2
        · have := run_work (fun l hl => ho l (List.mem_cons_of_mem _ hl)) h2
          rw [List.length_cons]
          omega

/-! ### what stays -/

theorem step_keeps {m m' : FsmMachine} {l : FsmMove} (h : m.step l = some m') :
    (∀ s, m.engine = some s → ∃ s', m'.engine = some s') ∧ ∃ more, m'.log = m.log ++ more := by
  cases l with
  | call e args => cases h; exact ⟨fun s h => ⟨s, h⟩, [], (List.append_nil _).symm⟩
  | go i =>
    obtain ⟨t, -, ht⟩ := Option.bind_eq_some_iff.mp h
    constructor
    · intro s hs
      unfold move at ht
      split at ht
      · cases ht
      · split at ht <;> cases ht <;> exact ⟨s, hs⟩
      · cases ht; exact ⟨s, hs⟩
      · cases ht; exact ⟨s, hs⟩
      · split at ht <;> cases ht <;> exact ⟨s, hs⟩
      · split at ht <;> cases ht <;> exact ⟨s, hs⟩
      · cases ht; exact ⟨s, hs⟩
      · split at ht <;> cases ht
        · exact ⟨_, rfl⟩
        · exact ⟨s, hs⟩
      · split at ht <;> cases ht <;> exact ⟨s, hs⟩
    · rcases move_log ht with ⟨-, h2⟩ | ⟨e, args, s, -, -, -, h3⟩
      · exact ⟨[], by rw [h2, List.append_nil]⟩
      · exact ⟨_, h3⟩

theorem inv_source {m : FsmMachine} (h : Inv m) {s : Subs} (hs : m.engine = some s) :
    ∃ rest, m.log.head? = some (.init, .subscriptions s :: rest) := by
  have ht := h.tokens
  rw [hs] at ht
  generalize m.fsm = f, m.log = log, m.threads.filter token = ts at *
  cases ht with
  | built => exact ⟨_, rfl⟩
  | ready h => exact ⟨_, h⟩
  | pending h => exact ⟨_, h⟩
  | rebuild h => exact ⟨_, h⟩
  | rebuilding h => exact ⟨_, h⟩
  | rebuilt h => exact ⟨_, h⟩

theorem inv_keeps {m m' : FsmMachine} {l : FsmMove} (h : Inv m) (hp : l.Proper) (hs : m.step l = some m') {s : Subs}
    (he : m.engine = some s) : m'.engine = some s := by
  obtain ⟨h1, more, h2⟩ := step_keeps hs
  obtain ⟨s', e'⟩ := h1 s he
  obtain ⟨r, a⟩ := inv_source h he
  obtain ⟨r', b⟩ := inv_source (inv_step h hp hs) e'
  rw [h2, List.head?_append, a] at b
  simp only [Option.some_or, Option.some.injEq, Prod.mk.injEq, true_and, List.cons.injEq,
    FsmArg.subscriptions.injEq] at b
  rw [e', b.1]

/-- a call of `init` is not forgotten -/
def Wants (m : FsmMachine) : Prop := m.fsm ≠ .unavailable ∨ ∃ args, FsmThread.event .init args ∈ m.threads

theorem wants_step {m m' : FsmMachine} {l : FsmMove} (h : Wants m) (hs : m.step l = some m') : Wants m' := by
  cases l with
  | call e args =>
    cases hs
    exact h.imp id fun ⟨a, ha⟩ => ⟨a, List.mem_append_left _ ha⟩
  | go i =>
    obtain ⟨t, hi, ht⟩ := Option.bind_eq_some_iff.mp hs
    by_cases hf : m.fsm = .unavailable
    · obtain ⟨a, ha⟩ := h.resolve_left fun h => h hf
      by_cases he : ∃ args, t = .event .init args
      · obtain ⟨args, rfl⟩ := he
        unfold move at ht
        simp only [fsmDst, hf] at ht
        cases ht
        exact Or.inl (by simp)
      · right
        refine ⟨a, ?_⟩
        obtain ⟨p, q, e1, e2⟩ := split_at hi
        have hin : ∀ t' : FsmThread, FsmThread.event .init a ∈ m.threads.set i t' := by
          intro t'
          rw [e1] at ha
          rw [e2]
          rcases List.mem_append.mp ha with ha | ha
          · exact List.mem_append_left _ ha
          · rcases List.mem_cons.mp ha with rfl | ha
            · exact absurd ⟨_, rfl⟩ he
            · exact List.mem_append_right _ (List.mem_cons_of_mem _ ha)
        unfold move at ht
        split at ht
        · cases ht
        · split at ht <;> cases ht <;> exact hin _
        · cases ht; exact List.mem_append_left _ (hin _)
        · cases ht; exact hin _
        · split at ht <;> cases ht <;> first | exact hin _ | exact ha
        · split at ht <;> cases ht <;> first | exact hin _ | exact ha
        · cases ht; exact hin _
        · split at ht <;> cases ht <;> first | exact hin _ | exact ha
        · split at ht <;> cases ht <;> first | exact hin _ | exact ha
    · left
      rcases move_log ht with ⟨h1, -⟩ | ⟨e, args, s, -, h1, h2, -⟩
      · rw [h1]; exact hf
      · rw [h2]
        rintro rfl
        revert h1
        generalize m.fsm = f
        cases e <;> cases f <;> simp [fsmDst]

theorem wants_run : ∀ {ls : List FsmMove} {m m' : FsmMachine}, Wants m ∨ (∃ args, .call .init args ∈ ls) →
    m.run ls = some m' → Wants m'
  | [], m, m', h, hr => by
    cases hr
    rcases h with h | ⟨a, ha⟩
    · exact h
    · cases ha
  | l :: ls, m, m', h, hr => by
    rw [run] at hr
    split at hr
    · cases hr
    · obtain ⟨m1, h1, h2⟩ := Option.bind_eq_some_iff.mp hr
      refine wants_run ?_ h2
      rcases h with h | ⟨a, ha⟩
      · exact Or.inl (wants_step h h1)
      · rcases List.mem_cons.mp ha with rfl | ha
        · cases h1
          exact Or.inl (Or.inr ⟨a, by simp⟩)
        · exact Or.inr ⟨a, ha⟩

/-- without a call of `init` nothing is generated -/
theorem never_inits {ls : List FsmMove} {m : FsmMachine} (hp : ∀ l ∈ ls, l.Proper ∧ ∀ args, l ≠ .call .init args)
    (h : fsmStart.run ls = some m) : Inv m ∧ m.fsm = .unavailable ∧ ∀ a, FsmThread.event .init a ∉ m.threads := by
  refine run_induction (P := fun m => Inv m ∧ m.fsm = .unavailable ∧ ∀ a, FsmThread.event .init a ∉ m.threads)
    (Q := fun l => l.Proper ∧ ∀ args, l ≠ .call .init args) ?_ hp ⟨inv_start, rfl, by simp [fsmStart]⟩ h
  rintro m m' l ⟨hi, hf, hn⟩ _ ⟨hp, hq⟩ hs
  refine ⟨inv_step hi hp hs, ?_⟩
  cases l with
  | call e args =>
    cases hs
    refine ⟨hf, fun a ha => ?_⟩
    rcases List.mem_append.mp ha with ha | ha
    · exact hn a ha
    · cases List.mem_singleton.mp ha
      exact hq _ rfl
  | go i =>
    obtain ⟨t, ht, hm⟩ := Option.bind_eq_some_iff.mp hs
    have htm := List.mem_of_getElem? ht
    have hg := hi.good t htm
    have htok := hi.tokens
    rw [hf] at htok
    have hnt : token t = false := by
      cases e : token t
      · rfl
      · have : t ∈ m.threads.filter token := List.mem_filter.mpr ⟨htm, e⟩
        generalize m.threads.filter token = ts, m.engine = en, m.log = lo at *
        cases htok
        cases this
    have hnw : waiting t = false := by
      have hl := hi.logOk
      rw [hf] at hl
      have hc := hi.count
      rw [show m.log.map Prod.fst = [] from hl] at hc
      have hz : m.threads.countP waiting = 0 := by
        rw [List.count_nil] at hc
        omega
      rw [List.countP_eq_zero] at hz
      simpa using hz t htm
    cases t with
    | over => cases hm
    | announce => cases hnw
    | construct _ => cases hnt
    | entered s args =>
      cases s with
      | unavailable => exact absurd hg (by simp [Good])
      | ready => cases hnw
      | _ => cases hnt
    | event e args =>
      cases e with
      | init => exact absurd htm (hn _)
      | deploy => cases hnt
      | rebuild => cases hnt
      | other => exact absurd hg (by simp [Good])
      | update =>
        unfold move at hm
        simp only [fsmDst, hf] at hm
        cases hm
        refine ⟨hf, fun a ha => ?_⟩
        rcases List.mem_or_eq_of_mem_set ha with ha | ha
        · exact hn a ha
        · cases ha

end FsmMachine
end Gosstrak
