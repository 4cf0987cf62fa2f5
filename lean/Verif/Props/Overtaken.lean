import Verif.Spec.Overtaken
import Verif.Proofs.Fair
import Verif.Props.FactoryRest

/-! # C111: how many reports can be missing, and for how long -/
namespace Gosstrak
open World
variable {F : Type} {c : Config F} {sub : Subs} {w : World F}

/-- C111: of the reports that the generators have handed over, the main program has received all but as many as fit
    into its channel, and one. -/
theorem C111_missing (h : Reaches c sub w) : w.sent.length ≤ (w.seen.filter Msg.isReport).length + c.capacity + 1 := by
  have h1 := (C69_conserved h).length_eq
  have h2 := queue_bounded h
  have h3 : w.listener.hand.length ≤ 1 := by cases w.listener <;> simp [Listener.hand]
  rw [List.filter_append, List.filter_append, List.length_append, List.length_append] at h1
  have h4 := List.length_filter_le Msg.isReport w.queue
  have h5 := List.length_filter_le Msg.isReport w.listener.hand
  omega

private abbrev ls : Str := "List".toList

/-- the report that is overtaken: one search, without a match -/
private abbrev rep : Msg (Nat × Nat) := .traffic ls 1 0

/-- the reports that overtake it -/
private abbrev nil : Msg (Nat × Nat) := .traffic ls 0 0

/-- the moves of a round -/
private def move (i : Nat) : Label :=
  match i % 8 with
  | 0 => .genTick ls
  | 1 => .recvTraffic ls
  | 2 => .listener
  | 3 => .recvMain
  | 4 => .listener
  | 5 => .mainRecv
  | 6 => .genCompute ls
  | _ => .genReset ls

/-- the generator, the listener and the main channel in a round -/
private def place (i : Nat) : Monitor (Nat × Nat) × Listener (Nat × Nat) × List (Msg (Nat × Nat)) :=
  match i % 8 with
  | 0 => (.waiting, .idle, [rep])
  | 1 => (.sendTraffic 0 0, .idle, [rep])
  | 2 => (.compute, .send nil, [rep])
  | 3 => (.compute, .idle, [rep, nil])
  | 4 => (.compute, .send rep, [nil])
  | 5 => (.compute, .idle, [nil, rep])
  | 6 => (.compute, .idle, [rep])
  | _ => (.reset, .idle, [rep])

private structure Round (i : Nat) (w : World (Nat × Nat)) : Prop where
  alive : w.crashed = false
  selector : w.selector = .idle
  searcher : w.searcher = .idle
  built : ∀ n, (w.gens n).builder = .off ∨ (w.gens n).builder = .done
  begun : ∀ n ∈ exactCode.names, (w.gens n).fsm ≠ .unavailable
  others : ∀ n, n ≠ ls → (w.gens n).monitor = .waiting
  zero : (w.gens ls).events = 0 ∧ (w.gens ls).matched = 0 ∧ (w.gens ls).totalTime = 0
  place : ((w.gens ls).monitor, w.listener, w.queue) = place i
  missing : rep ∉ w.seen

private theorem upd_same {α : Type} (f : Str → α) (n : Str) (v : α) : upd f n v n = v := if_pos rfl
private theorem upd_other {α : Type} (f : Str → α) {n m : Str} (v : α) (h : m ≠ n) : upd f n v m = f m := if_neg h

/-- what a move of the generator leaves -/
private theorem Round.gen {i : Nat} {w w' : World (Nat × Nat)} {g : Gen (Nat × Nat)} (h : Round i w)
    (hg : w'.gens = upd w.gens ls g) (hc : w'.crashed = w.crashed) (h1 : w'.selector = w.selector)
    (h2 : w'.searcher = w.searcher) (h3 : w'.seen = w.seen) (hb : g.builder = (w.gens ls).builder)
    (hf : g.fsm = (w.gens ls).fsm) (hz : g.events = 0 ∧ g.matched = 0 ∧ g.totalTime = 0)
    (hp : (g.monitor, w'.listener, w'.queue) = Gosstrak.place (i + 1)) : Round (i + 1) w' := by
  have e : ∀ n, (n = ls ∧ w'.gens n = g) ∨ (n ≠ ls ∧ w'.gens n = w.gens n) := fun n => by
    rw [hg]
    by_cases hn : n = ls
    · exact .inl ⟨hn, by rw [hn]; exact upd_same _ _ _⟩
    · exact .inr ⟨hn, upd_other _ _ hn⟩
  have els : w'.gens ls = g := by rw [hg]; exact upd_same _ _ _
  refine ⟨hc.trans h.alive, h1.trans h.selector, h2.trans h.searcher, fun n => ?_, fun n hn => ?_, fun n hn => ?_,
    by rw [els]; exact hz, by rw [els]; exact hp, by rw [h3]; exact h.missing⟩
  · rcases e n with ⟨rfl, e⟩ | ⟨-, e⟩ <;> rw [e]
    · rw [hb]; exact h.built _
    · exact h.built n
  · rcases e n with ⟨rfl, e⟩ | ⟨-, e⟩ <;> rw [e]
    · rw [hf]; exact h.begun _ hn
    · exact h.begun n hn
  · rcases e n with ⟨h', -⟩ | ⟨-, e⟩
    · exact absurd h' hn
    · rw [e]; exact h.others n hn

private theorem Round.next {i : Nat} {w : World (Nat × Nat)} (h : Round i w) :
    ∃ w', World.step exactCode w (move i) = some w' ∧
      w'.seen = w.seen ++ (if i % 8 = 5 then [nil] else []) ∧ Round (i + 1) w' := by
  have hp := h.place
  have hin : ls ∈ exactCode.names := by show _ ∈ codeNames; decide +kernel
  have hcap : exactCode.capacity = 128 := rfl
  have h8 : i % 8 < 8 := Nat.mod_lt _ (by decide)
  have hz := h.zero
  unfold Gosstrak.place at hp
  unfold move
  have next : (i + 1) % 8 = (i % 8 + 1) % 8 := by omega
  generalize e : i % 8 = p at *
  match p, h8 with
  | 0, _ =>
    obtain ⟨m1, m2, m3⟩ : (w.gens ls).monitor = .waiting ∧ w.listener = .idle ∧ w.queue = [rep] := by
      simpa using hp
    refine ⟨w.setGen ls { w.gens ls with monitor := .sendTraffic (w.gens ls).events (w.gens ls).matched },
      by simp only [World.step, m1, if_pos hin], by simp [World.setGen], h.gen rfl rfl rfl rfl rfl rfl rfl hz ?_⟩
    simp only [Gosstrak.place, next, hz, World.setGen, m2, m3]
  | 1, _ =>
    obtain ⟨m1, m2, m3⟩ : (w.gens ls).monitor = .sendTraffic 0 0 ∧ w.listener = .idle ∧ w.queue = [rep] := by
      simpa using hp
    refine ⟨{ w.setGen ls { w.gens ls with monitor := .compute, batches := (w.gens ls).batches ++ [(w.gens ls).batch] } with
      listener := .send nil, sent := w.sent ++ [nil] }, by simp only [World.step, m1, m2], by simp [World.setGen], h.gen rfl rfl rfl rfl rfl rfl rfl hz ?_⟩
    simp only [Gosstrak.place, next, World.setGen, m3]
  | 2, _ =>
    obtain ⟨m1, m2, m3⟩ : (w.gens ls).monitor = .compute ∧ w.listener = .send nil ∧ w.queue = [rep] := by
      simpa using hp
    refine ⟨{ w with queue := [rep, nil], listener := .idle }, by simp [World.step, listenerStep, push, m2, m3, hcap],
      by simp, ⟨h.alive, h.selector, h.searcher, h.built, h.begun, h.others, h.zero, ?_, h.missing⟩⟩
    simp only [Gosstrak.place, next, m1]
  | 3, _ =>
    obtain ⟨m1, m2, m3⟩ : (w.gens ls).monitor = .compute ∧ w.listener = .idle ∧ w.queue = [rep, nil] := by
      simpa using hp
    refine ⟨{ w with queue := [nil], listener := .send rep }, by simp [World.step, m2, m3],
      by simp, ⟨h.alive, h.selector, h.searcher, h.built, h.begun, h.others, h.zero, ?_, h.missing⟩⟩
    simp only [Gosstrak.place, next, m1]
  | 4, _ =>
    obtain ⟨m1, m2, m3⟩ : (w.gens ls).monitor = .compute ∧ w.listener = .send rep ∧ w.queue = [nil] := by
      simpa using hp
    refine ⟨{ w with queue := [nil, rep], listener := .idle }, by simp [World.step, listenerStep, push, m2, m3, hcap],
      by simp, ⟨h.alive, h.selector, h.searcher, h.built, h.begun, h.others, h.zero, ?_, h.missing⟩⟩
    simp only [Gosstrak.place, next, m1]
  | 5, _ =>
    obtain ⟨m1, m2, m3⟩ : (w.gens ls).monitor = .compute ∧ w.listener = .idle ∧ w.queue = [nil, rep] := by
      simpa using hp
    refine ⟨{ w with queue := [rep], seen := w.seen ++ [nil] }, by simp [World.step, m3],
      by simp, ⟨h.alive, h.selector, h.searcher, h.built, h.begun, h.others, h.zero, ?_, ?_⟩⟩
    · simp only [Gosstrak.place, next, m1, m2]
    · intro hm
      rcases List.mem_append.mp hm with hm | hm
      · exact h.missing hm
      · simp at hm
  | 6, _ =>
    obtain ⟨m1, m2, m3⟩ : (w.gens ls).monitor = .compute ∧ w.listener = .idle ∧ w.queue = [rep] := by
      simpa using hp
    refine ⟨w.setGen ls { w.gens ls with monitor := .reset }, ?_, by simp [World.setGen], h.gen rfl rfl rfl rfl rfl rfl rfl hz ?_⟩
    · have : ¬ ((exactCode.floats.lt (exactCode.floats.div 0 0) exactCode.floats.zero ∨
        exactCode.floats.lt exactCode.floats.zero (exactCode.floats.div 0 0)) ∧
        ¬ exactCode.floats.isNaN (exactCode.floats.div 0 0)) := by decide
      simp only [World.step, m1, hz]
      rw [if_neg this]
    · simp only [Gosstrak.place, next, World.setGen, m2, m3]
  | 7, _ =>
    obtain ⟨m1, m2, m3⟩ : (w.gens ls).monitor = .reset ∧ w.listener = .idle ∧ w.queue = [rep] := by
      simpa using hp
    refine ⟨w.setGen ls { w.gens ls with monitor := .waiting, events := 0, matched := 0, totalTime := 0, batch := [] },
      by simp only [World.step, m1], by simp [World.setGen], h.gen rfl rfl rfl rfl rfl rfl rfl ⟨rfl, rfl, rfl⟩ ?_⟩
    simp only [Gosstrak.place, next, World.setGen, m2, m3]

/-- only what is done in a round can be done -/
private theorem Round.only {i : Nat} {w w' : World (Nat × Nat)} {l : Label} (h : Round i w) (ho : l.Own)
    (hs : World.step exactCode w l = some w') : ∃ p, l = move p := by
  have hw : ∀ {n}, (w.gens n).monitor ≠ .waiting → n = ls := fun {n} hm =>
    Classical.byContradiction fun hn => hm (h.others n hn)
  have hm := fun n => (h.built n)
  cases l with
  | init n =>
    simp only [World.step] at hs
    split at hs
    · rename_i hc; exact absurd hc.2 (h.begun n hc.1)
    · cases hs
  | build n => rcases hm n with e | e <;> simp [World.step, e] at hs
  | deploy n => rcases hm n with e | e <;> simp [World.step, e] at hs
  | genTick n => rcases ho with h | ⟨_, h⟩ <;> cases h
  | genCompute n =>
    have : n = ls := hw fun e => by simp [World.step, e] at hs
    exact ⟨6, by rw [this]; rfl⟩
  | genReset n =>
    have : n = ls := hw fun e => by simp [World.step, e] at hs
    exact ⟨7, by rw [this]; rfl⟩
  | recvGenerated n =>
    exfalso
    rcases hm n with e | e <;> simp only [World.step, e] at hs <;> split at hs <;> simp_all
  | recvTraffic n =>
    have : n = ls := hw fun e => by
      simp only [World.step, e] at hs
      split at hs <;> simp_all
    exact ⟨1, by rw [this]; rfl⟩
  | recvStatus n =>
    exfalso
    have : n = ls := hw fun e => by
      simp only [World.step, e] at hs
      split at hs <;> simp_all
    subst this
    have hne : ∀ v, (w.gens ls).monitor ≠ .sendStatus v := by
      have hp := congrArg Prod.fst h.place
      intro v hv
      rw [hv] at hp
      unfold Gosstrak.place at hp
      split at hp <;> cases hp
    simp only [World.step] at hs
    split at hs
    · rename_i v _ e; exact hne _ e
    · cases hs
  | recvMain => exact ⟨3, rfl⟩
  | listener => exact ⟨2, rfl⟩
  | mainRecv => exact ⟨5, rfl⟩
  | tick o => rcases ho with h | ⟨_, h⟩ <;> cases h
  | search o => rcases ho with h | ⟨_, h⟩ <;> cases h
  | manageAdd p u => rcases ho with h | ⟨_, h⟩ <;> cases h
  | manageDelete p u => rcases ho with h | ⟨_, h⟩ <;> cases h
  | selector => simp [World.step, selectorStep, h.selector] at hs
  | _ => simp [World.step, h.searcher] at hs

/-- one search by all engines, of which the list engine has reported and the main channel holds only that report -/
private def reported : List Label :=
  let one : List Label := [.searchNext, .engineSearch false, .track 1000]
  allReady ++ [.search codeNames] ++ one ++ [.searchNext] ++ one ++ one ++ one ++
  [.genTick ls, .recvTraffic ls, .listener, .genCompute ls, .recvStatus ls, .listener, .listener, .genReset ls,
    .recvMain, .listener, .mainRecv]

-- test: two reports handed over, of which one has been received
example : (run exactCode (start exactCode []) reported).map (fun w =>
    (w.sent.length, (w.seen.filter Msg.isReport).length)) = some (2, 1) := by decide +kernel

/-- C111, the code: even if no goroutine and no case of a `select` is passed over for ever, a report may never reach
    the main program: whenever it is the next in the main channel, the listener takes it and puts it behind the
    others, for ever. -/
theorem C111_overtaken : ∃ (s : Nat → World (Nat × Nat)) (l : Nat → Label), Reaches exactCode [] (s 0) ∧
    World.Endless exactCode s l ∧ World.Fair exactCode s l ∧
    ∃ m ∈ (s 0).sent, m.isReport = true ∧ (∀ i, m ∉ (s i).seen) ∧
      ∀ k, ∃ i, k ≤ ((s i).seen.filter Msg.isReport).length := by
  have h : ((run exactCode (start exactCode []) reported).map fun w => decide ((w.crashed = false ∧
      w.selector = .idle ∧ w.searcher = .idle ∧ (∀ n ∈ exactCode.names, (w.gens n).builder = .done) ∧
      (∀ n ∈ exactCode.names, (w.gens n).fsm ≠ .unavailable) ∧ (∀ n ∈ exactCode.names, (w.gens n).monitor = .waiting)) ∧
      ((w.gens ls).events = 0 ∧ (w.gens ls).matched = 0 ∧ (w.gens ls).totalTime = 0) ∧
      (w.listener = .idle ∧ w.queue = [rep]) ∧ rep ∉ w.seen ∧ rep ∈ w.sent)) = some true := by
    decide +kernel
  obtain ⟨r, hr, he⟩ := Option.map_eq_some_iff.mp h
  obtain ⟨⟨e1, e2, e3, e4, e5, e6⟩, e7, ⟨e8, e9⟩, e10, e11⟩ := of_decide_eq_true he
  have hreach : Reaches exactCode [] r := ⟨_, hr⟩
  have hi := Inv.reaches quotients_lawful (code_names _) hreach
  have ha := Aux.reaches hreach
  have hmon : ∀ n, (r.gens n).monitor = .waiting := fun n => by
    by_cases hm : n ∈ exactCode.names
    · exact e6 n hm
    · exact Classical.byContradiction fun e => hm ((ha n).1 e)
  have hb : ∀ n, (r.gens n).builder = .off ∨ (r.gens n).builder = .done := fun n => by
    by_cases hm : n ∈ exactCode.names
    · exact .inr (e4 n hm)
    cases e : (r.gens n).builder with
    | off => exact .inl rfl
    | building s => exact absurd ((hi.gens n).building s e).2.2 hm
    | deploying => exact absurd ((hi.gens n).deploying e).2.2 hm
    | announcing => exact absurd ((hi.gens n).ready ((hi.gens n).announcing e)).2 hm
    | done => exact .inr rfl
  have r0 : Round 0 r := ⟨e1, e2, e3, hb, e5, fun n _ => hmon n, e7, by rw [hmon, e8, e9]; rfl, e10⟩
  let s : Nat → World (Nat × Nat) := fun i => Nat.rec r (fun i w => (World.step exactCode w (move i)).getD w) i
  have hs : ∀ i, Round i (s i) := fun i => by
    induction i with
    | zero => exact r0
    | succ i ih =>
      obtain ⟨w', h1, -, h2⟩ := ih.next
      have : s (i + 1) = w' := by
        show (World.step exactCode (s i) (move i)).getD (s i) = w'
        rw [h1]; rfl
      rw [this]; exact h2
  have moves : ∀ i, World.step exactCode (s i) (move i) = some (s (i + 1)) := fun i => by
    obtain ⟨w', h1, -⟩ := (hs i).next
    show _ = some ((World.step exactCode (s i) (move i)).getD (s i))
    rw [h1]; rfl
  have again : ∀ p k, move (p + 8 * k) = move p := fun p k => by
    unfold move
    rw [Nat.add_mul_mod_self_left]
  have seen : ∀ i, (s (i + 1)).seen = (s i).seen ++ (if i % 8 = 5 then [nil] else []) := fun i => by
    obtain ⟨w', h1, h2, -⟩ := (hs i).next
    rw [moves i] at h1
    cases h1
    exact h2
  have many : ∀ k, k ≤ ((s (8 * k)).seen.filter Msg.isReport).length := fun k => by
    induction k with
    | zero => exact Nat.zero_le _
    | succ k ih =>
      have e : (s (8 * (k + 1))).seen = (s (8 * k)).seen ++ [nil] := by
        rw [show 8 * (k + 1) = 8 * k + 1 + 1 + 1 + 1 + 1 + 1 + 1 + 1 by omega]
        simp [seen, Nat.add_mod]
      rw [e, List.filter_append, List.length_append]
      exact Nat.add_le_add ih (Nat.le_refl 1)
  refine ⟨s, move, hreach, ⟨fun i => (hs i).alive, moves⟩, fun k ho hcan i => ?_, rep, e11, rfl,
    fun i => (hs i).missing, fun k => ?_⟩
  · obtain ⟨j, -, k', w, h1, h2⟩ := hcan 0
    have ho' : k'.Own := by
      cases k <;> cases k' <;> first | exact .inl rfl | (cases h1 <;> exact ho)
    obtain ⟨p, hp⟩ := (hs j).only ho' h2
    exact ⟨p + 8 * i, by omega, by rw [again, ← hp]; exact h1⟩
  · exact ⟨_, many k⟩

end Gosstrak
