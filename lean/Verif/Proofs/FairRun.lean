import Verif.Proofs.Fair

/-! Lemmas for C109: an endless execution in which nobody is passed over for ever. -/
namespace Gosstrak
open World
variable {F : Type} {env : FcEnv} {c : Config F} {tr : Translator} {sub : Subs} {E : Engines} {flag : Option Int}

/-- An endless execution of the whole program among other things that happen; `none` is such a thing. The main
    channel is again and again not full. -/
structure Lasting (env : FcEnv) (c : Config F) (tr : Translator) (sub : Subs) (E : Engines) (flag : Option Int)
    (s : Nat → Prog F) (l : Nat → Option ProgLabel) : Prop where
  floats : c.floats.Lawful
  noname : [] ∉ c.names
  names : c.names ≠ []
  known : ∀ n ∈ c.names, ∃ m : EngineName, m.text = n
  start : s 0 = progStart c sub E flag
  moves : ∀ i, (l i = none ∧ s (i + 1) = s i) ∨ ∃ k, l i = some k ∧ ProgStep env c tr (s i) k (s (i + 1))
  running : ∀ i, (s i).fc.ended = none
  fair : ∀ k : ProgLabel, k.Own → k ≠ .factory .mainRecv → (∀ i, ∃ j, i ≤ j ∧ (s j).Can env c tr k) →
    ∀ i, ∃ j, i ≤ j ∧ ∃ m, l j = some m ∧ m.kind = k.kind
  drains : ∀ i, ∃ j, i ≤ j ∧ (s j).world.queue.length < c.capacity

theorem panic_ends {s t : Prog F} (h : ProgStep env c tr s .panic t) : t.fc.ended = some .panic := by
  cases h with
  | panic => rfl

namespace Lasting
variable {s : Nat → Prog F} {l : Nat → Option ProgLabel}

theorem run (x : Lasting env c tr sub E flag s l) (i : Nat) :
    ProgRun env c tr (progStart c sub E flag) ((List.range i).filterMap l) (s i) := by
  induction i with
  | zero => rw [x.start]; exact .nil _
  | succ i ih =>
    rw [List.range_succ, List.filterMap_append]
    rcases x.moves i with ⟨h1, h2⟩ | ⟨k, h1, h2⟩
    · rw [h2]; simpa [h1] using ih
    · simpa [h1] using ih.snoc h2

theorem reaches (x : Lasting env c tr sub E flag s l) (i : Nat) : Reaches c sub (s i).world :=
  prog_reaches x.floats x.noname (x.run i)

theorem inv (x : Lasting env c tr sub E flag s l) (i : Nat) : Inv c sub (s i).world :=
  Inv.reaches x.floats x.noname (x.reaches i)

theorem can (x : Lasting env c tr sub E flag s l) {i : Nat} {k : Label} {w : World F} (ho : k.Own)
    (hw : World.step c (s i).world k = some w) : (s i).Can env c tr (.factory k) := by
  obtain ⟨-, E0, -, -, -, h⟩ := prog_refines x.floats x.noname (P := fun _ => True) ⟨.list, trivial⟩ (x.run i)
    fun _ _ => trivial
  exact prog_can x.floats x.noname x.known (x.run i) (x.running i) (h (x.running i)) ho hw

/-- what a move does to the factory -/
theorem world (x : Lasting env c tr sub E flag s l) (i : Nat) :
    ((s (i + 1)).world = (s i).world ∧ ∀ m, l i = some m → m = .panic ∨ ∃ k, m = .fc k) ∨
    ∃ k, l i = some (.factory k) ∧ World.step c (s i).world k = some (s (i + 1)).world := by
  rcases x.moves i with ⟨h1, h2⟩ | ⟨k, h1, h2⟩
  · exact .inl ⟨by rw [h2], fun m e => by rw [h1] at e; cases e⟩
  · rcases progStep_world h2 with ⟨e, h⟩ | ⟨k', rfl, h⟩
    · refine .inl ⟨e, fun m e' => ?_⟩
      rw [h1] at e'
      cases e'
      cases k with
      | fc k => exact .inr ⟨k, rfl⟩
      | factory k => exact absurd rfl (h k)
      | panic => exact .inl rfl
    · exact .inr ⟨k', h1, h⟩

theorem leads (x : Lasting env c tr sub E flag s l) {P Q : Nat → Prop} (k : ProgLabel) (ho : k.Own)
    (hk : k ≠ .factory .mainRecv) (stay : ∀ j, P j → P (j + 1) ∨ Q (j + 1))
    (took : ∀ j m, P j → l j = some m → m.kind = k.kind → Q (j + 1))
    (en : ∀ j, P j → ∃ j', j ≤ j' ∧ (P j' → (s j').Can env c tr k ∨ Q j')) (i : Nat) (h : P i) :
    ∃ j, i ≤ j ∧ Q j := by
  by_cases hq : ∃ j, i ≤ j ∧ Q j
  · exact hq
  exfalso
  have hp : ∀ d, P (i + d) := by
    intro d
    induction d with
    | zero => exact h
    | succ d ih => exact (stay _ ih).resolve_right fun hh => hq ⟨_, by omega, hh⟩
  have hp : ∀ j, i ≤ j → P j := fun j hj => by
    have := hp (j - i)
    rwa [Nat.add_sub_cancel' hj] at this
  obtain ⟨j, h1, m, h2, h3⟩ := x.fair k ho hk (fun j => by
    obtain ⟨j', a1, a2⟩ := en (max i j) (hp _ (Nat.le_max_left _ _))
    have hi : i ≤ j' := Nat.le_trans (Nat.le_max_left _ _) a1
    exact ⟨j', Nat.le_trans (Nat.le_max_right _ _) a1, (a2 (hp _ hi)).resolve_right fun hh => hq ⟨_, hi, hh⟩⟩) i
  exact hq ⟨j + 1, by omega, took j m (hp j h1) h2 h3⟩

/-- the listener of the factory is again and again ready for the next message -/
theorem idle (x : Lasting env c tr sub E flag s l) (i : Nat) : ∃ j, i ≤ j ∧ (s j).world.listener = .idle := by
  suffices h : ∀ n i, Listener.steps (s i).world.listener ≤ n → ∃ j, i ≤ j ∧ (s j).world.listener = .idle from
    h _ i (Nat.le_refl _)
  intro n
  induction n with
  | zero =>
    intro i h
    refine ⟨i, Nat.le_refl _, ?_⟩
    cases e : (s i).world.listener <;> rw [e] at h <;> first | rfl | simp [Listener.steps] at h
  | succ n ih =>
    intro i h
    by_cases hy : (s i).world.listener = .idle
    · exact ⟨i, Nat.le_refl _, hy⟩
    generalize ey : (s i).world.listener = y at h hy
    obtain ⟨j, h1, h2⟩ := x.leads (P := fun j => (s j).world.listener = y)
      (Q := fun j => Listener.steps (s j).world.listener < Listener.steps y) (.factory .listener)
      (.inl (.inl rfl)) (by nofun) (fun j hP => by
        rcases x.world j with ⟨e, -⟩ | ⟨k, -, e⟩
        · left; rw [e]; exact hP
        · by_cases hk : k = .listener
          · subst hk
            right
            have := steps_listener (x.inv (j + 1)).ok e
            rwa [hP] at this
          · left
            rw [listener_keep e (by rw [hP]; exact hy) hk]; exact hP)
      (fun j m hP e hm => by
        have := kind_plain (k := .listener) (by nofun) (by nofun) hm
        subst this
        rcases x.world j with ⟨-, h⟩ | ⟨k, e', hw⟩
        · rcases h _ e with h | ⟨k, h⟩ <;> cases h
        · rw [e] at e'; cases e'
          have := steps_listener (x.inv (j + 1)).ok hw
          rwa [hP] at this)
      (fun j hP => by
        obtain ⟨j', h1, h2⟩ := x.drains j
        refine ⟨j', h1, fun hP' => .inl ?_⟩
        obtain ⟨w, hw⟩ := listener_can (c := c) (w := (s j').world) (by rw [hP']; exact hy) h2
        exact x.can (.inl rfl) hw) i ey
    obtain ⟨j', h3, h4⟩ := ih j (by omega)
    exact ⟨j', by omega, h4⟩

/-- the monitor of a generator is again and again ready to count a search -/
theorem counts (x : Lasting env c tr sub E flag s l) (n : Str) (i : Nat) :
    ∃ j, i ≤ j ∧ ((s j).world.gens n).monitor = .waiting := by
  suffices h : ∀ b i, Monitor.left ((s i).world.gens n).monitor ≤ b →
      ∃ j, i ≤ j ∧ ((s j).world.gens n).monitor = .waiting from h _ i (Nat.le_refl _)
  intro b
  induction b with
  | zero =>
    intro i h
    refine ⟨i, Nat.le_refl _, ?_⟩
    cases e : ((s i).world.gens n).monitor <;> rw [e] at h <;> first | rfl | simp [Monitor.left] at h
  | succ b ih =>
    intro i h
    by_cases hy : ((s i).world.gens n).monitor = .waiting
    · exact ⟨i, Nat.le_refl _, hy⟩
    generalize ey : ((s i).world.gens n).monitor = y at h hy
    have hplain : (∀ o, y.move n ≠ .search o) ∧ (∀ t, y.move n ≠ .track t) ∧ y.move n ≠ .mainRecv ∧
        (y.move n).Own ∧ (ProgLabel.factory (y.move n)).kind = .factory (y.move n) := by
      cases y <;> exact ⟨nofun, nofun, nofun, .inl rfl, rfl⟩
    obtain ⟨p1, p2, p3, p4, p5⟩ := hplain
    obtain ⟨j, h1, h2⟩ := x.leads (P := fun j => ((s j).world.gens n).monitor = y)
      (Q := fun j => Monitor.left ((s j).world.gens n).monitor < Monitor.left y) (.factory (y.move n))
      (.inl p4) (fun e => p3 (ProgLabel.factory.inj e)) (fun j hP => by
        rcases x.world j with ⟨e, -⟩ | ⟨k, -, e⟩
        · left; rw [e]; exact hP
        · exact (monitor_step e hP hy).imp And.left id)
      (fun j m hP e hm => by
        rw [p5] at hm
        have := kind_plain p1 p2 hm
        subst this
        rcases x.world j with ⟨-, h⟩ | ⟨k, e', hw⟩
        · rcases h _ e with h | ⟨k, h⟩ <;> cases h
        · rw [e] at e'; cases e'
          exact (monitor_step hw hP hy).resolve_left fun h => h.2 rfl)
      (fun j hP => by
        obtain ⟨j', h1, h2⟩ := x.idle j
        refine ⟨j', h1, fun hP' => .inl ?_⟩
        obtain ⟨w, hw⟩ : ∃ w, World.step c (s j').world (y.move n) = some w := by
          cases y with
          | waiting => exact absurd rfl hy
          | sendTraffic a b => simp [Monitor.move, World.step, hP', h2]
          | compute =>
            simp only [Monitor.move, World.step, hP']
            split <;> exact ⟨_, rfl⟩
          | sendStatus v => simp [Monitor.move, World.step, hP', h2]
          | reset => simp [Monitor.move, World.step, hP']
        exact x.can p4 hw) i ey
    obtain ⟨j', h3, h4⟩ := ih j (by omega)
    exact ⟨j', by omega, h4⟩

/-- every call of `Search` returns -/
theorem returns (x : Lasting env c tr sub E flag s l) (i : Nat) : ∃ j, i ≤ j ∧ (s j).world.searcher = .idle := by
  suffices h : ∀ b i, Searcher.left (s i).world.searcher ≤ b → ∃ j, i ≤ j ∧ (s j).world.searcher = .idle from
    h _ i (Nat.le_refl _)
  intro b
  induction b with
  | zero =>
    intro i h
    refine ⟨i, Nat.le_refl _, ?_⟩
    cases e : (s i).world.searcher <;> rw [e] at h <;> first | rfl | simp [Searcher.left] at h
  | succ b ih =>
    intro i h
    by_cases hy : (s i).world.searcher = .idle
    · exact ⟨i, Nat.le_refl _, hy⟩
    generalize ey : (s i).world.searcher = y at h hy
    have hmove : y.move ≠ .factory .mainRecv ∧ y.move.Own ∧ y.move.kind = y.move := by
      cases y <;> first | exact ⟨nofun, .inl (.inl rfl), rfl⟩ | exact ⟨nofun, trivial, rfl⟩
    obtain ⟨p1, p2, p3⟩ := hmove
    obtain ⟨j, h1, h2⟩ := x.leads (P := fun j => (s j).world.searcher = y)
      (Q := fun j => Searcher.left (s j).world.searcher < Searcher.left y) y.move p2 p1 (fun j hP => by
        rcases x.world j with ⟨e, -⟩ | ⟨k, -, e⟩
        · left; rw [e]; exact hP
        · exact (searcher_step e (x.inv (j + 1)).ok hP hy).imp And.left id)
      (fun j m hP e hm => by
        rw [p3] at hm
        rcases x.world j with ⟨-, h⟩ | ⟨k, e', hw⟩
        · rcases h _ e with rfl | ⟨k, rfl⟩
          · rcases x.moves j with ⟨a, -⟩ | ⟨k, a, b⟩
            · rw [e] at a; cases a
            · rw [e] at a; cases a
              have := x.running (j + 1)
              rw [panic_ends b] at this
              cases this
          · cases y <;> cases hm
        · rw [e] at e'; cases e'
          exact (searcher_step hw (x.inv (j + 1)).ok hP hy).resolve_left fun h => h.2 hm)
      (fun j hP => by
        cases y with
        | idle => exact absurd rfl hy
        | range rest =>
          refine ⟨j, Nat.le_refl _, fun hP' => .inl ?_⟩
          obtain ⟨w, hw⟩ : ∃ w, World.step c (s j).world .searchNext = some w := by
            cases rest <;> simp only [World.step, hP'] <;> split <;> exact ⟨_, rfl⟩
          exact x.can (.inl rfl) hw
        | call n rest =>
          refine ⟨j, Nat.le_refl _, fun hP' => .inl ?_⟩
          obtain ⟨w, hw⟩ : ∃ w, World.step c (s j).world (.engineSearch true) = some w := by
            simp only [World.step, hP']; split <;> exact ⟨_, rfl⟩
          exact x.can (.inl rfl) hw
        | readMatched n rest =>
          refine ⟨j, Nat.le_refl _, fun hP' => .inl ?_⟩
          obtain ⟨w, hw⟩ : ∃ w, World.step c (s j).world (.readMatched) = some w := by simp [World.step, hP']
          exact x.can (.inl rfl) hw
        | writeMatched n rest m =>
          refine ⟨j, Nat.le_refl _, fun hP' => .inl ?_⟩
          obtain ⟨w, hw⟩ : ∃ w, World.step c (s j).world (.writeMatched) = some w := by simp [World.step, hP']
          exact x.can (.inl rfl) hw
        | track n rest =>
          obtain ⟨j', h1, h2⟩ := x.counts n j
          refine ⟨j', h1, fun hP' => .inl ?_⟩
          obtain ⟨w, hw⟩ : ∃ w, World.step c (s j').world (.track 0) = some w := by simp [World.step, hP', h2]
          exact x.can (.inl rfl) hw) i ey
    obtain ⟨j', h3, h4⟩ := ih j (by omega)
    exact ⟨j', by omega, h4⟩

/-- every engine is built and announced -/
theorem built (x : Lasting env c tr sub E flag s l) {n : Str} (hn : n ∈ c.names) :
    ∃ i, ∀ j, i ≤ j → ((s j).world.gens n).builder = .done := by
  have step : ∀ j y, ((s j).world.gens n).builder = y → ((s (j + 1)).world.gens n).builder = y ∨
      Builder.rank ((s (j + 1)).world.gens n).builder < Builder.rank y := by
    intro j y hP
    rcases x.world j with ⟨e, -⟩ | ⟨k, -, e⟩
    · left; rw [e]; exact hP
    · exact (builder_step (x.inv j) e hP).imp And.left id
  have ever : ∀ b i, Builder.rank ((s i).world.gens n).builder ≤ b →
      ∃ j, i ≤ j ∧ ((s j).world.gens n).builder = .done := by
    intro b
    induction b with
    | zero =>
      intro i h
      refine ⟨i, Nat.le_refl _, ?_⟩
      cases e : ((s i).world.gens n).builder <;> rw [e] at h <;> first | rfl | simp [Builder.rank] at h
    | succ b ih =>
      intro i h
      by_cases hy : ((s i).world.gens n).builder = .done
      · exact ⟨i, Nat.le_refl _, hy⟩
      generalize ey : ((s i).world.gens n).builder = y at h hy
      have hplain : (∀ o, y.move n ≠ .search o) ∧ (∀ t, y.move n ≠ .track t) ∧ y.move n ≠ .mainRecv ∧
          (y.move n).Own ∧ (ProgLabel.factory (y.move n)).kind = .factory (y.move n) := by
        cases y <;> first
          | exact ⟨nofun, nofun, nofun, .inl rfl, rfl⟩
          | exact ⟨nofun, nofun, nofun, .inr ⟨_, rfl⟩, rfl⟩
      obtain ⟨p1, p2, p3, p4, p5⟩ := hplain
      obtain ⟨j, h1, h2⟩ := x.leads (P := fun j => ((s j).world.gens n).builder = y)
        (Q := fun j => Builder.rank ((s j).world.gens n).builder < Builder.rank y) (.factory (y.move n))
        (.inl p4) (fun e => p3 (ProgLabel.factory.inj e)) (fun j hP => step j y hP)
        (fun j m hP e hm => by
          rw [p5] at hm
          have := kind_plain p1 p2 hm
          subst this
          rcases x.world j with ⟨-, h⟩ | ⟨k, e', hw⟩
          · rcases h _ e with h | ⟨k, h⟩ <;> cases h
          · rw [e] at e'; cases e'
            exact (builder_step (x.inv j) hw hP).resolve_left fun h => h.2 hy rfl)
        (fun j hP => by
          obtain ⟨j', h1, h2⟩ := x.idle j
          refine ⟨j', h1, fun hP' => .inl ?_⟩
          obtain ⟨w, hw⟩ : ∃ w, World.step c (s j').world (y.move n) = some w := by
            cases y with
            | off => simp [Builder.move, World.step, hn, (Aux.reaches (x.reaches j') n).2 hP']
            | building q => simp [Builder.move, World.step, hP']
            | deploying => simp [Builder.move, World.step, hP', (((x.inv j').gens n).deploying hP').1]
            | announcing => simp [Builder.move, World.step, hP', h2]
            | done => exact absurd rfl hy
          exact x.can p4 hw) i ey
      obtain ⟨j', h3, h4⟩ := ih j (by omega)
      exact ⟨j', by omega, h4⟩
  obtain ⟨i, -, h⟩ := ever _ 0 (Nat.le_refl _)
  refine ⟨i, fun j hj => ?_⟩
  obtain ⟨d, rfl⟩ := Nat.exists_eq_add_of_le hj
  clear hj
  induction d with
  | zero => exact h
  | succ d ih => exact (step _ _ ih).resolve_right (by simp [Builder.rank])

/-- the factory becomes active and remains so -/
theorem active (x : Lasting env c tr sub E flag s l) : ∃ i, ∀ j, i ≤ j → (s j).world.isActive = true := by
  obtain ⟨n, hn⟩ := List.exists_mem_of_ne_nil _ x.names
  obtain ⟨i, hi⟩ := x.built hn
  obtain ⟨i', h1, h2⟩ := x.idle i
  have h : (s i').world.isActive = true := by
    rcases announced_reaches x.floats x.noname (x.reaches i') n (hi i' h1) with h | ⟨m, h⟩ | ⟨m, h⟩
    · simpa [isActive] using h
    · rw [h2] at h; cases h
    · rw [h2] at h; cases h
  refine ⟨i', fun j hj => ?_⟩
  obtain ⟨d, rfl⟩ := Nat.exists_eq_add_of_le hj
  clear hj
  induction d with
  | zero => exact h
  | succ d ih =>
    show (s (i' + d + 1)).world.isActive = true
    rcases x.world (i' + d) with ⟨e, -⟩ | ⟨k, -, e⟩
    · rw [e]; exact ih
    · exact active_step x.noname (x.inv _) e ih

end Lasting
end Gosstrak
