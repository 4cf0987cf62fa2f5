import Verif.Spec.FairManaged
import Verif.Proofs.FairMonitored
import Verif.Proofs.Managed

/-! Lemmas for C110: the process with its management port as an execution of `Proofs/FairRun.lean`. -/
namespace Gosstrak
open World
variable {F : Type} {env : FcEnv} {c : Config F} {tr : Translator} {sub : Subs} {E : Engines} {flag : Option Int}
  {percent : Percent F} {accept : Point F → Bool} {enabled : Bool}

/-- the move of everything but the management port -/
def ManLabel.monOf : ManLabel → Option MonLabel
  | .mon l => some l
  | _ => none

theorem manStep_alive {s t : Managed F} {l : ManLabel} (h : ManStep env c tr percent accept enabled s l t) :
    s.mon.prog.fc.ended = none ∧ s.mon.stat.dead = false := by
  cases h with
  | mon hs => exact monStep_alive hs
  | listen hu => exact ⟨hu.1, hu.2.1⟩
  | noListen hu => exact ⟨hu.1, hu.2.1⟩
  | connect hu => exact ⟨hu.1, hu.2.1⟩
  | noConnect hu => exact ⟨hu.1, hu.2.1⟩
  | acceptFails hu => exact ⟨hu.1, hu.2.1⟩

/-- a move after which the process goes on -/
theorem manStep_mon {s t : Managed F} {l : ManLabel} (h : ManStep env c tr percent accept enabled s l t)
    (he : t.mon.prog.fc.ended = none) : (l.monOf = none ∧ t.mon = s.mon) ∨
      ∃ k, l.monOf = some k ∧ MonStep env c tr percent accept enabled s.mon k t.mon := by
  cases h with
  | mon hs => exact .inr ⟨_, rfl, hs⟩
  | listen | connect | noConnect => exact .inl ⟨rfl, rfl⟩
  | noListen | acceptFails => cases he

/-- the port stays open, and is opened by its own move only -/
theorem manStep_listening {s t : Managed F} {l : ManLabel} (h : ManStep env c tr percent accept enabled s l t)
    (he : t.mon.prog.fc.ended = none) :
    (s.listening = true → t.listening = true) ∧ (l.kind = .listen true → t.listening = true) := by
  cases h with
  | mon hs => exact ⟨id, nofun⟩
  | listen => exact ⟨fun _ => rfl, fun _ => rfl⟩
  | connect | noConnect => exact ⟨id, nofun⟩
  | noListen | acceptFails => cases he

theorem arr_man (l : Nat → ManLabel) (i : Nat) :
    Lasting.arr (fun i => (l i).monOf.bind MonLabel.progOf) i = bytesFrom (monMoves ((List.range i).map l)) := by
  induction i with
  | zero => rfl
  | succ i ih =>
    rw [Lasting.arr_succ, ih, List.range_succ, List.map_append]
    rw [show (List.map l [i]) = [l i] from rfl, monMoves_snoc]
    generalize l i = k
    cases k with
    | mon k =>
      have := arr_bytes (fun _ => k) 1
      unfold bytesFrom at this ⊢
      rw [List.flatMap_append]
      congr 1
    | listen | connect | acceptFails =>
      simp [ManLabel.monOf, monMoves, bytesFrom]
      rfl

theorem lasting_man (hf : c.floats.Lawful) (hn : [] ∉ c.names) (hne : c.names ≠ []) (hcap : 0 < c.capacity)
    (hnames : ∀ n ∈ c.names, ∃ m : EngineName, m.text = n) {s : Nat → Managed F} {l : Nat → ManLabel}
    (h0 : s 0 = manStart c sub E flag) (he : Managed.Endless env c tr percent accept enabled s l)
    (hfair : Managed.Fair env c tr percent accept enabled s l) :
    Lasting env c tr sub E flag (fun i => (s i).mon.prog) fun i => (l i).monOf.bind MonLabel.progOf :=
  lasting_between (s := fun i => (s i).mon) (l := fun i => (l i).monOf) hf hn hne hcap hnames (by rw [h0]; rfl)
    (fun i => manStep_alive (he i)) (fun i => manStep_mon (he i) (manStep_alive (he (i + 1))).1) fun k ho h i => by
      obtain ⟨j, h1, h2⟩ := hfair (.mon k) ho (fun i => by
        obtain ⟨j, h1, m, t, h2, h3⟩ := h i
        exact ⟨j, h1, .mon m, _, by simp only [ManLabel.kind, h2], .mon h3⟩) i
      refine ⟨j, h1, ?_⟩
      rcases e : l j with m | m | m | _ <;> rw [e] at h2
      · exact ⟨m, rfl, ManLabel.mon.inj h2⟩
      all_goals cases h2

theorem man_opens (x : Lasting env c tr sub E flag (fun i => (s i : Managed F).mon.prog) l') {l : Nat → ManLabel}
    (he : Managed.Endless env c tr percent accept enabled s l)
    (hfair : Managed.Fair env c tr percent accept enabled s l) : ∃ i, ∀ j, i ≤ j → (s j).listening = true := by
  have stays : ∀ i, (s i).listening = true → ∀ d, (s (i + d)).listening = true := by
    intro i h d
    induction d with
    | zero => exact h
    | succ d ih => exact (manStep_listening (he _) (manStep_alive (he (i + d + 1))).1).1 ih
  obtain ⟨a, ha⟩ := x.active
  obtain ⟨i, -, hi⟩ : ∃ i, a ≤ i ∧ (s i).listening = true := by
    by_cases hq : (s a).listening = true
    · exact ⟨a, Nat.le_refl _, hq⟩
    obtain ⟨j, h1, h2⟩ := leads_to (P := fun j => a ≤ j ∧ (s j).listening ≠ true)
      (Q := fun j => (s j).listening = true) (hfair (.listen true) trivial)
      (fun j hP => (Classical.em ((s (j + 1)).listening = true)).symm.imp (fun h => ⟨by omega, h⟩) id)
      (fun j _ hk => (manStep_listening (he j) (manStep_alive (he (j + 1))).1).2 hk)
      (fun j _ => ⟨j, Nat.le_refl _, fun hP => ⟨.listen true, _, rfl,
        .listen ⟨(manStep_alive (he j)).1, (manStep_alive (he j)).2, ha j hP.1⟩ (by simpa using hP.2)⟩⟩) a
      ⟨Nat.le_refl _, hq⟩
    exact ⟨j, h1, h2⟩
  refine ⟨i, fun j hj => ?_⟩
  have := stays i hi (j - i)
  rwa [Nat.add_sub_cancel' hj] at this

end Gosstrak
