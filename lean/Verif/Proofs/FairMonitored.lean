import Verif.Spec.FairMonitored
import Verif.Proofs.FairMain

/-! Lemmas for C109: executions of the program, with and without statistics, as those of `Proofs/FairRun.lean`. -/
namespace Gosstrak
open World
variable {F : Type} {env : FcEnv} {c : Config F} {tr : Translator} {sub : Subs} {E : Engines} {flag : Option Int}
  {percent : Percent F} {accept : Point F → Bool} {enabled : Bool}

/-- what is possible again and again while `P` holds is made, and makes `Q` -/
theorem leads_to {P Q En Tk : Nat → Prop} (fair : (∀ i, ∃ j, i ≤ j ∧ En j) → ∀ i, ∃ j, i ≤ j ∧ Tk j)
    (stay : ∀ j, P j → P (j + 1) ∨ Q (j + 1)) (took : ∀ j, P j → Tk j → Q (j + 1))
    (en : ∀ j, P j → ∃ j', j ≤ j' ∧ (P j' → En j')) (i : Nat) (h : P i) : ∃ j, i ≤ j ∧ Q j := by
  by_cases hq : ∃ j, i ≤ j ∧ Q j
  · exact hq
  exfalso
  have hp : ∀ d, P (i + d) := by
    intro d
    induction d with
    | zero => exact h
    | succ d ih => exact (stay _ ih).resolve_right fun hh => hq ⟨_, by omega, hh⟩
  have hp : ∀ j, i ≤ j → P j := fun j hj => by
    have := hp (j - i)
    rwa [Nat.add_sub_cancel' hj] at this
  obtain ⟨j, h1, h2⟩ := fair (fun j => by
    obtain ⟨j', a1, a2⟩ := en (max i j) (hp _ (Nat.le_max_left _ _))
    exact ⟨j', by omega, a2 (hp _ (by omega))⟩) i
  exact hq ⟨j + 1, by omega, took j (hp j h1) h2⟩

theorem lasting_prog (hf : c.floats.Lawful) (hn : [] ∉ c.names) (hne : c.names ≠ []) (hcap : 0 < c.capacity)
    (hnames : ∀ n ∈ c.names, ∃ m : EngineName, m.text = n) {s : Nat → Prog F} {l : Nat → ProgLabel}
    (he : Prog.Endless env c tr (progStart c sub E flag) s l) (hfair : Prog.Fair env c tr s l) :
    Lasting env c tr sub E flag s fun i => some (l i) := by
  have run : ∀ i, ∃ ls, ProgRun env c tr (progStart c sub E flag) ls (s i) := by
    intro i
    induction i with
    | zero => exact ⟨[], by rw [he.start]; exact .nil _⟩
    | succ i ih =>
      obtain ⟨ls, h⟩ := ih
      exact ⟨_, h.snoc (he.moves i)⟩
  refine ⟨hf, hn, hne, hnames, he.start, fun i => .inr ⟨_, rfl, he.moves i⟩, fun i => progStep_running (he.moves i),
    fun k ho _ h i => ?_, fun i => ?_⟩
  · obtain ⟨j, h1, h2⟩ := hfair k ho h i
    exact ⟨j, h1, _, rfl, h2⟩
  · by_cases hq : (s i).world.queue.length < c.capacity
    · exact ⟨i, Nat.le_refl _, hq⟩
    refine leads_to (P := fun j => ¬ (s j).world.queue.length < c.capacity)
      (Q := fun j => (s j).world.queue.length < c.capacity) (hfair (.factory .mainRecv) (.inl (.inl rfl)))
      (fun j _ => (Classical.em _).symm) (fun j hP hk => ?_) (fun j _ => ⟨j, Nat.le_refl _, fun hP => ?_⟩) i hq
    · have e := kind_plain (k := .mainRecv) (by nofun) (by nofun) hk
      have hs := he.moves j
      rw [e] at hs
      obtain ⟨ls, hr⟩ := run j
      have hb := queue_bounded (prog_reaches hf hn hr)
      rcases progStep_world hs with ⟨-, h⟩ | ⟨k, e', hw⟩
      · exact absurd rfl (h _)
      · cases e'
        simp only [World.step] at hw
        split at hw
        · rename_i m q eq
          have hw := (Option.some.inj hw).symm
          rw [hw]
          show q.length < _
          rw [eq] at hb
          exact Nat.lt_of_succ_le hb
        · cases hw
    · have hq : (s j).world.queue ≠ [] := fun h => hP (by rw [h]; exact hcap)
      obtain ⟨w, hw⟩ : ∃ w, World.step c (s j).world .mainRecv = some w := by
        cases e : (s j).world.queue with
        | nil => exact absurd e hq
        | cons m q => simp [World.step, e]
      exact ⟨_, _, rfl, .aside (progStep_running (he.moves j)) trivial hw⟩

/-- the move of the program in a move of the program with statistics -/
def MonLabel.progOf : MonLabel → Option ProgLabel
  | .prog l => some l
  | .watch .take => some (.factory .mainRecv)
  | .watch _ => none

theorem arr_bytes (l : Nat → MonLabel) (i : Nat) :
    Lasting.arr (fun i => (l i).progOf) i = bytesFrom ((List.range i).map l) := by
  induction i with
  | zero => rfl
  | succ i ih =>
    rw [Lasting.arr_succ, ih, List.range_succ, List.map_append]
    unfold bytesFrom
    rw [List.flatMap_append]
    congr 1
    show _ = List.flatMap _ [l i]
    rcases l i with (k | k | _) | k
    · cases k <;> simp [MonLabel.progOf, fcMoves, arrivedIn]
    · simp [MonLabel.progOf, fcMoves, arrivedIn]
    · simp [MonLabel.progOf, fcMoves, arrivedIn]
    · cases k <;> simp [MonLabel.progOf, fcMoves, arrivedIn]

theorem written_step {x r : Watched F} (h : Watched.step c percent accept enabled x .written = some r) :
    r.world = x.world ∧ r.holding = x.holding ∧ r.writing = false := by
  simp only [Watched.step] at h
  split at h <;> cases h
  exact ⟨rfl, rfl, rfl⟩

theorem refused_step {x r : Watched F} (h : Watched.step c percent accept enabled x .refused = some r) :
    r.stat.dead = true := by
  simp only [Watched.step] at h
  split at h <;> cases h
  rfl

/-- what a move does to the two goroutines -/
theorem watch_step {s t : Monitored F} {l : MonLabel} (h : MonStep env c tr percent accept enabled s l t)
    (hd : t.stat.dead = false) :
    (s.writing = true → (t.writing = true ∧ l.kind ≠ .watch .written) ∨ t.writing = false) ∧
    (s.holding ≠ none → (t.holding ≠ none ∧ l ≠ .watch .hand) ∨ t.holding = none) ∧
    (l = .watch .take → ∃ m q, s.prog.world.queue = m :: q ∧ t.prog.world.queue = q) ∧
    (l.kind = .watch .written → t.writing = false) ∧ (l = .watch .hand → t.holding = none) := by
  cases h with
  | @prog l p hd' hl hs =>
    exact ⟨fun h => .inl ⟨h, nofun⟩, fun h => .inl ⟨h, nofun⟩, nofun, nofun, nofun⟩
  | @watch l r he hd' hl hs =>
    cases l with
    | world k => exact absurd rfl (hl k)
    | take =>
      simp only [Watched.step, Monitored.watched] at hs
      split at hs
      · rename_i m q e1 e2
        obtain ⟨w, hw, rfl⟩ := Option.map_eq_some_iff.mp hs
        refine ⟨fun h => .inl ⟨h, nofun⟩, fun h => absurd e1 h, fun _ => ⟨m, q, e2, ?_⟩, nofun, nofun⟩
        simp only [World.step, e2] at hw
        cases hw
        rfl
      · cases hs
    | hand =>
      simp only [Watched.step, Monitored.watched] at hs
      split at hs
      · rename_i m _
        cases hw : s.writing with
        | true => simp [hw] at hs
        | false =>
          simp only [hw, Bool.false_eq_true, if_false] at hs
          cases hs
          have : ∀ x : Watched F, (x.receive percent accept m).holding = none := by
            intro x
            unfold Watched.receive
            split <;> first | rfl | (split <;> rfl)
          refine ⟨nofun, fun _ => .inr (this _), nofun, nofun, fun _ => this _⟩
      · cases hs
    | written =>
      obtain ⟨-, h2, h3⟩ := written_step hs
      exact ⟨fun _ => .inr h3, fun h => .inl ⟨by rw [h2]; exact h, nofun⟩, nofun, fun _ => h3, nofun⟩
    | refused =>
      have := refused_step hs
      rw [show r.stat.dead = false from hd] at this
      cases this

/-- The same for moves between which something may happen that has no part in the filtering: `l i` is `none` there. -/
theorem lasting_between (hf : c.floats.Lawful) (hn : [] ∉ c.names) (hne : c.names ≠ []) (hcap : 0 < c.capacity)
    (hnames : ∀ n ∈ c.names, ∃ m : EngineName, m.text = n) {s : Nat → Monitored F} {l : Nat → Option MonLabel}
    (h0 : s 0 = monStart c sub E flag) (alive : ∀ i, (s i).prog.fc.ended = none ∧ (s i).stat.dead = false)
    (he : ∀ i, (l i = none ∧ s (i + 1) = s i) ∨
      ∃ k, l i = some k ∧ MonStep env c tr percent accept enabled (s i) k (s (i + 1)))
    (hfair : ∀ k : MonLabel, k.Own → (∀ i, ∃ j, i ≤ j ∧ (s j).Can env c tr percent accept enabled k) →
      ∀ i, ∃ j, i ≤ j ∧ ∃ m, l j = some m ∧ m.kind = k.kind) :
    Lasting env c tr sub E flag (fun i => (s i).prog) fun i => (l i).bind MonLabel.progOf := by
  have moves : ∀ {i k}, l i = some k → MonStep env c tr percent accept enabled (s i) k (s (i + 1)) := fun {i k} h => by
    rcases he i with ⟨h', -⟩ | ⟨m, h', hs⟩
    · rw [h] at h'; cases h'
    · rw [h] at h'; cases h'; exact hs
  have run : ∀ i, ∃ ls, MonRun env c tr percent accept enabled (monStart c sub E flag) ls (s i) := by
    intro i
    induction i with
    | zero => exact ⟨[], by rw [h0]; exact .nil _⟩
    | succ i ih =>
      obtain ⟨ls, h⟩ := ih
      rcases he i with ⟨-, e⟩ | ⟨k, -, hs⟩
      · exact ⟨ls, by rw [e]; exact h⟩
      · exact ⟨_, h.snoc hs⟩
  have reach : ∀ i, Reaches c sub (s i).prog.world := fun i => by
    obtain ⟨ls, h⟩ := run i
    exact Watched.world_reaches (mon_watched hf hn h)
  have free : ∀ i, ∃ j, i ≤ j ∧ (s j).writing = false := by
    intro i
    cases hw : (s i).writing with
    | false => exact ⟨i, Nat.le_refl _, hw⟩
    | true =>
      refine leads_to (P := fun j => (s j).writing = true) (Q := fun j => (s j).writing = false)
        (hfair (.watch .written) nofun) (fun j hP => ?_) (fun j _ ⟨m, hm, hk⟩ => ?_)
        (fun j _ => ⟨j, Nat.le_refl _, fun hP => ?_⟩) i hw
      · rcases he j with ⟨-, e⟩ | ⟨k, -, hs⟩
        · exact .inl (by rw [e]; exact hP)
        · exact ((watch_step hs (alive _).2).1 hP).imp And.left id
      · exact (watch_step (moves hm) (alive _).2).2.2.2.1 hk
      · exact ⟨.watch .written, _, rfl, .watch (alive j).1 (alive j).2 nofun
          (by simp only [Watched.step]; rw [if_pos (show (s j).watched.writing = true from hP)])⟩
  have empty : ∀ i, ∃ j, i ≤ j ∧ (s j).holding = none := by
    intro i
    by_cases hw : (s i).holding = none
    · exact ⟨i, Nat.le_refl _, hw⟩
    refine leads_to (P := fun j => (s j).holding ≠ none) (Q := fun j => (s j).holding = none)
        (hfair (.watch .hand) nofun) (fun j _ => (Classical.em _).symm) (fun j _ ⟨m, hm, hk⟩ => ?_)
        (fun j _ => ?_) i hw
    · refine (watch_step (moves hm) (alive _).2).2.2.2.2 ?_
      rcases m with k | k
      · cases hk
      · cases k <;> first | rfl | cases hk
    · obtain ⟨j', h1, h2⟩ := free j
      refine ⟨j', h1, fun hP => ?_⟩
      cases e : (s j').holding with
      | none => exact absurd e hP
      | some m =>
        exact ⟨.watch .hand, _, rfl, .watch (alive j').1 (alive j').2 nofun
          (by simp [Watched.step, Monitored.watched, e, h2]; rfl)⟩
  refine ⟨hf, hn, hne, hnames, by rw [h0]; rfl, fun i => ?_, fun i => (alive i).1, fun k ho hk h i => ?_, fun i => ?_⟩
  · rcases he i with ⟨e, e'⟩ | ⟨k, hl, hs⟩
    · exact .inl ⟨by rw [e]; rfl, by rw [e']⟩
    rw [hl]
    generalize ht : s (i + 1) = t at hs
    have hc : t.prog.world.crashed = false := by rw [← ht]; exact C53_no_crash hf hn (reach (i + 1))
    cases hs with
    | prog hd hl hs => exact .inr ⟨_, rfl, hs⟩
    | @watch k r he hd hl' hs =>
      cases k with
      | world k => exact absurd rfl (hl' k)
      | take =>
        right
        refine ⟨_, rfl, ?_⟩
        simp only [Watched.step, Monitored.watched] at hs
        split at hs
        · obtain ⟨w, hw, rfl⟩ := Option.map_eq_some_iff.mp hs
          have := ProgStep.aside (env := env) (tr := tr) (s := (s i).prog) (l := .mainRecv) he trivial hw
          rwa [moved_eq hc] at this
        · cases hs
      | hand =>
        left
        simp only [Watched.step, Monitored.watched] at hs
        refine ⟨rfl, ?_⟩
        split at hs
        · cases hw : (s i).writing with
          | true => simp [hw] at hs
          | false =>
            simp only [hw, Bool.false_eq_true, if_false] at hs
            cases hs
            show ({ (s i).prog with world := _ } : Prog F) = _
            rw [Watched.receive_world]
        · cases hs
      | written =>
        left
        refine ⟨rfl, ?_⟩
        show ({ (s i).prog with world := _ } : Prog F) = _
        rw [(written_step hs).1]
        rfl
      | refused =>
        have := (alive (i + 1)).2
        rw [ht, show r.stat.dead = true from refused_step hs] at this
        cases this
  · obtain ⟨j, h1, h2⟩ := hfair (.prog k) ho (fun i => by
      obtain ⟨j, h1, m, t, h2, h3⟩ := h i
      refine ⟨j, h1, .prog m, _, by simp only [MonLabel.kind, h2], .prog (alive j).2 ?_ h3⟩
      rintro rfl
      exact hk (kind_plain (k := .mainRecv) (by nofun) (by nofun) h2.symm)) i
    obtain ⟨m, hm, h2⟩ := h2
    refine ⟨j, h1, ?_⟩
    rw [hm]
    rcases m with m | m
    · exact ⟨m, rfl, MonLabel.prog.inj h2⟩
    · cases m <;> cases h2
  · by_cases hq : (s i).prog.world.queue.length < c.capacity
    · exact ⟨i, Nat.le_refl _, hq⟩
    refine leads_to (P := fun j => ¬ (s j).prog.world.queue.length < c.capacity)
      (Q := fun j => (s j).prog.world.queue.length < c.capacity) (hfair (.watch .take) nofun)
      (fun j _ => (Classical.em _).symm) (fun j hP ⟨k, hm, hk⟩ => ?_) (fun j _ => ?_) i hq
    · have e : k = .watch .take := by
        rcases k with k | k
        · cases hk
        · cases k <;> first | rfl | cases hk
      obtain ⟨m, q, h1, h2⟩ := (watch_step (moves hm) (alive _).2).2.2.1 e
      have hb := queue_bounded (reach j)
      rw [h1] at hb
      rw [h2]
      exact Nat.lt_of_succ_le hb
    · obtain ⟨j', h1, h2⟩ := empty j
      refine ⟨j', h1, fun hP => ?_⟩
      cases e : (s j').prog.world.queue with
      | nil => exact absurd (by rw [e]; exact hcap) hP
      | cons m q =>
        obtain ⟨w, hw⟩ : ∃ w, World.step c (s j').prog.world .mainRecv = some w := by simp [World.step, e]
        exact ⟨.watch .take, _, rfl, .watch (alive j').1 (alive j').2 nofun
          (by simp only [Watched.step, Monitored.watched, h2, e, hw]; rfl)⟩

theorem lasting_mon (hf : c.floats.Lawful) (hn : [] ∉ c.names) (hne : c.names ≠ []) (hcap : 0 < c.capacity)
    (hnames : ∀ n ∈ c.names, ∃ m : EngineName, m.text = n) {s : Nat → Monitored F} {l : Nat → MonLabel}
    (h0 : s 0 = monStart c sub E flag) (he : Monitored.Endless env c tr percent accept enabled s l)
    (hfair : Monitored.Fair env c tr percent accept enabled s l) :
    Lasting env c tr sub E flag (fun i => (s i).prog) fun i => (l i).progOf :=
  lasting_between (l := fun i => some (l i)) hf hn hne hcap hnames h0 (fun i => monStep_alive (he i))
    (fun i => .inr ⟨_, rfl, he i⟩) fun k ho h i => by
      obtain ⟨j, h1, h2⟩ := hfair k ho h i
      exact ⟨j, h1, _, rfl, h2⟩

end Gosstrak
