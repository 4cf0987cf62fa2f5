import Verif.Proofs.FairManaged
import Verif.Props.Fair
import Verif.Props.Managed

/-! # C110: connections to the management port keep nothing from being dealt with -/
namespace Gosstrak

open World

variable {F : Type} {env : FcEnv} {fl : Floats F} {tr : Translator} {sub : Subs} {E : Engines} {flag : Option Int}
  {percent : Percent F} {accept : Point F → Bool} {enabled : Bool}

/-- C110: however many clients connect and however often, there is for whatever has arrived a later moment by which
    every message of it has been answered and every report of it searched and collected, in order. -/
theorem C110_answered (hf : fl.Lawful) {s : Nat → Managed F} {l : Nat → ManLabel}
    (h0 : s 0 = manStart (Config.code fl) sub E flag)
    (he : Managed.Endless env (Config.code fl) tr percent accept enabled s l)
    (hfair : Managed.Fair env (Config.code fl) tr percent accept enabled s l) (i : Nat) : ∃ j, i ≤ j ∧
      repliesTo 0#32 (llrpLoop env.headers (bytesFrom (monMoves ((List.range i).map l)))).1 <+:
        (s j).mon.prog.fc.written ∧
      (reportBodies (llrpLoop env.headers (bytesFrom (monMoves ((List.range i).map l)))).1).map env.decode <+:
        (s j).mon.prog.fc.done.map fun p => some p.1 := by
  have := (lasting_man hf (code_names fl) (code_engines fl).1 (code_engines fl).2.1 (code_engines fl).2.2 h0 he
    hfair).answered i
  rwa [arr_man] at this

/-- C110: the port is opened in the end and stays open, so that from then on a client can connect at any moment. -/
theorem C110_open (hf : fl.Lawful) {s : Nat → Managed F} {l : Nat → ManLabel}
    (h0 : s 0 = manStart (Config.code fl) sub E flag)
    (he : Managed.Endless env (Config.code fl) tr percent accept enabled s l)
    (hfair : Managed.Fair env (Config.code fl) tr percent accept enabled s l) : ∃ i, ∀ j, i ≤ j →
      (s j).listening = true ∧ ∃ t, ManStep env (Config.code fl) tr percent accept enabled (s j) (.connect true) t ∧
        t.served = (s j).served + 1 ∧ t.mon = (s j).mon := by
  have x := lasting_man hf (code_names fl) (code_engines fl).1 (code_engines fl).2.1 (code_engines fl).2.2 h0 he hfair
  obtain ⟨a, ha⟩ := x.active
  obtain ⟨b, hb⟩ := man_opens x he hfair
  exact ⟨max a b, fun j hj => ⟨hb j (by omega), _, .connect ⟨(manStep_alive (he j)).1, (manStep_alive (he j)).2,
    ha j (by omega)⟩ (hb j (by omega)), rfl, rfl⟩⟩

/-- C110: such executions exist with any number of connections: every fair endless execution without the port is one
    with it in which clients connect for ever. -/
theorem C110_exists (hf : fl.Lawful) {s : Nat → Monitored F} {l : Nat → MonLabel}
    (h0 : s 0 = monStart (Config.code fl) sub E flag)
    (he : Monitored.Endless env (Config.code fl) tr percent accept enabled s l)
    (hfair : Monitored.Fair env (Config.code fl) tr percent accept enabled s l) :
    ∃ (s' : Nat → Managed F) (l' : Nat → ManLabel), s' 0 = manStart (Config.code fl) sub E flag ∧
      Managed.Endless env (Config.code fl) tr percent accept enabled s' l' ∧
      Managed.Fair env (Config.code fl) tr percent accept enabled s' l' ∧
      ∃ n, ∀ k, (s' (n + 1 + 2 * k)).mon = s (n + k) ∧ (s' (n + 1 + 2 * k)).served = k ∧
        monMoves ((List.range (n + 1 + 2 * k)).map l') = (List.range (n + k)).map l := by
  obtain ⟨n, hn⟩ := (lasting_mon hf (code_names fl) (code_engines fl).1 (code_engines fl).2.1 (code_engines fl).2.2 h0
    he hfair).active
  have up : ∀ {j : Nat} {b : Bool} {k : Nat}, n ≤ j → (⟨s j, b, k⟩ : Managed F).up := fun {j b k} hj =>
    ⟨(monStep_alive (he j)).1, (monStep_alive (he j)).2, hn j hj⟩
  let f : Nat → Managed F := fun i => if i ≤ n then ⟨s i, false, 0⟩ else
    ⟨s (n + (i - n - 1) / 2), true, (i - n - 1 + 1) / 2⟩
  let g : Nat → ManLabel := fun i => if i < n then .mon (l i) else if i = n then .listen true else
    if (i - n - 1) % 2 = 0 then .connect true else .mon (l (n + (i - n - 1) / 2))
  have f1 : ∀ {i}, i ≤ n → f i = ⟨s i, false, 0⟩ := fun h => if_pos h
  have f2 : ∀ k, f (n + 1 + 2 * k) = ⟨s (n + k), true, k⟩ := fun k => by
    show (if _ then _ else _) = _
    rw [if_neg (by omega), show (n + 1 + 2 * k - n - 1) / 2 = k by omega, show (n + 1 + 2 * k - n - 1 + 1) / 2 = k by omega]
  have f3 : ∀ k, f (n + 1 + 2 * k + 1) = ⟨s (n + k), true, k + 1⟩ := fun k => by
    show (if _ then _ else _) = _
    rw [if_neg (by omega), show (n + 1 + 2 * k + 1 - n - 1) / 2 = k by omega,
      show (n + 1 + 2 * k + 1 - n - 1 + 1) / 2 = k + 1 by omega]
  have g1 : ∀ {i}, i < n → g i = .mon (l i) := fun h => if_pos h
  have g0 : g n = .listen true := by
    show (if _ then _ else _) = _
    rw [if_neg (by omega), if_pos rfl]
  have g2 : ∀ k, g (n + 1 + 2 * k) = .connect true := fun k => by
    show (if _ then _ else _) = _
    rw [if_neg (by omega), if_neg (by omega), if_pos (by omega)]
  have g3 : ∀ k, g (n + 1 + 2 * k + 1) = .mon (l (n + k)) := fun k => by
    show (if _ then _ else _) = _
    rw [if_neg (by omega), if_neg (by omega), if_neg (by omega), show (n + 1 + 2 * k + 1 - n - 1) / 2 = k by omega]
  have cases_ : ∀ i, i < n ∨ i = n ∨ (∃ k, i = n + 1 + 2 * k) ∨ ∃ k, i = n + 1 + 2 * k + 1 := fun i => by
    rcases Nat.lt_trichotomy i n with h | h | h
    · exact .inl h
    · exact .inr (.inl h)
    · rcases Nat.mod_two_eq_zero_or_one (i - n - 1) with h' | h'
      · exact .inr (.inr (.inl ⟨(i - n - 1) / 2, by omega⟩))
      · exact .inr (.inr (.inr ⟨(i - n - 1) / 2, by omega⟩))
  refine ⟨f, g, ?_, fun i => ?_, fun k ho hcan i => ?_, n, fun k => ⟨by rw [f2], by rw [f2], ?_⟩⟩
  · rw [f1 (Nat.zero_le _), h0]; rfl
  · rcases cases_ i with h | rfl | ⟨k, rfl⟩ | ⟨k, rfl⟩
    · rw [f1 (Nat.le_of_lt h), f1 h, g1 h]
      exact .mon (s := ⟨s i, false, 0⟩) (he i)
    · rw [f1 (Nat.le_refl _), g0, show i + 1 = i + 1 + 2 * 0 from rfl, f2]
      exact .listen (s := ⟨s i, false, 0⟩) (up (Nat.le_refl _)) rfl
    · rw [f2, f3, g2]
      exact .connect (s := ⟨s (n + k), true, k⟩) (up (Nat.le_add_right _ _)) rfl
    · rw [f3, show n + 1 + 2 * k + 1 + 1 = n + 1 + 2 * (k + 1) by omega, f2, g3]
      exact .mon (s := ⟨s (n + k), true, k + 1⟩) (he (n + k))
  · cases k with
    | mon k =>
      obtain ⟨j, h1, h2⟩ := hfair k ho (fun i => by
        obtain ⟨j, h1, m, t, h2, h3⟩ := hcan (n + 1 + 2 * i)
        have hm : ∃ m', m = .mon m' ∧ m'.kind = k.kind := by
          cases m with
          | mon m => exact ⟨m, rfl, ManLabel.mon.inj h2⟩
          | _ => cases h2
        obtain ⟨m, rfl, hm⟩ := hm
        have hs : ∃ t, MonStep env (Config.code fl) tr percent accept enabled (f j).mon m t := by
          cases h3 with
          | mon hs => exact ⟨_, hs⟩
        obtain ⟨t, hs⟩ := hs
        rcases cases_ j with h | rfl | ⟨k, rfl⟩ | ⟨k, rfl⟩
        · omega
        · omega
        · rw [f2] at hs
          exact ⟨n + k, by omega, m, t, hm, hs⟩
        · rw [f3] at hs
          exact ⟨n + k, by omega, m, t, hm, hs⟩) (n + i)
      obtain ⟨d, rfl⟩ := Nat.exists_eq_add_of_le (show n ≤ j by omega)
      exact ⟨n + 1 + 2 * d + 1, by omega, by rw [g3]; simp only [ManLabel.kind, h2]⟩
    | listen ok =>
      exfalso
      obtain ⟨j, h1, m, t, h2, h3⟩ := hcan (n + 1)
      have hl : (f j).listening = true := by
        rcases cases_ j with h | rfl | ⟨k, rfl⟩ | ⟨k, rfl⟩
        · omega
        · omega
        · rw [f2]
        · rw [f3]
      cases h3 with
      | listen _ h => rw [hl] at h; cases h
      | noListen _ h => rw [hl] at h; cases h
      | _ => cases h2
    | connect => exact absurd ho id
    | acceptFails => exact absurd ho id
  · have base : ∀ m, m ≤ n → monMoves ((List.range m).map g) = (List.range m).map l := by
      intro m hm
      induction m with
      | zero => rfl
      | succ m ih =>
        rw [List.range_succ, List.map_append, List.map_append, ← ih (by omega)]
        rw [show [m].map g = [g m] from rfl, g1 hm, monMoves_snoc]
        rfl
    induction k with
    | zero =>
      show monMoves ((List.range (n + 1)).map g) = _
      rw [List.range_succ, List.map_append, show [n].map g = [g n] from rfl, g0, monMoves_snoc, base n (Nat.le_refl _)]
      exact List.append_nil _
    | succ k ih =>
      rw [show n + 1 + 2 * (k + 1) = n + 1 + 2 * k + 1 + 1 by omega, List.range_succ, List.range_succ, List.map_append,
        List.map_append, show [n + 1 + 2 * k].map g = [g (n + 1 + 2 * k)] from rfl,
        show [n + 1 + 2 * k + 1].map g = [g (n + 1 + 2 * k + 1)] from rfl, g2, g3, monMoves_snoc, monMoves_snoc, ih,
        ← Nat.add_assoc, List.range_succ, List.map_append]
      show (_ ++ []) ++ _ = _
      rw [List.append_nil]
      rfl

-- test: an execution that C110_answered and C110_open speak of: one report, then keepalives and connections for ever
example : ∃ sub E s l, loadRecords statFile = some sub ∧ newEngines sampleBinutil.encoder sub sub sub sub = some E ∧
    s 0 = manStart exactCode sub E none ∧
    Managed.Endless statEnv exactCode translate anyPercent (fun _ => true) true s l ∧
    Managed.Fair statEnv exactCode translate anyPercent (fun _ => true) true s l ∧
    ∀ k, ∃ i, k ≤ (s i).served ∧ tagReport.wire ++ (List.replicate k keepAlive.wire).flatten <+:
      bytesFrom (monMoves ((List.range i).map l)) := by
  obtain ⟨sub, E, s, l, hsub, hE, h0, h1, h2, n, -, h3⟩ := fair_keepalives
  obtain ⟨s', l', g0, g1, g2, m, g3⟩ := C110_exists quotients_lawful h0 h1 h2
  refine ⟨sub, E, s', l', hsub, hE, g0, g1, g2, fun k => ?_⟩
  refine ⟨m + 1 + 2 * (n + 2 * k), by rw [(g3 _).2.1]; omega, ?_⟩
  rw [(g3 _).2.2, ← h3 k, Nat.add_comm m]
  generalize n + 2 * k = q
  rw [List.range_add, List.map_append]
  unfold bytesFrom
  rw [List.flatMap_append]
  exact List.prefix_append _ _

end Gosstrak
