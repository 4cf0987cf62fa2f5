import Verif.Proofs.Managed
import Verif.Props.Monitored

/-! # C108: the ports and the commands around the filtering -/
namespace Gosstrak
variable {F : Type} {env : FcEnv} {c : Config F} {tr : Translator} {percent : Percent F} {accept : Point F → Bool}
  {enabled : Bool} {sub : Subs} {E : Engines} {flag : Option Int} {s : Managed F} {ls : List ManLabel}

/-- C108: as long as the port could be opened and `Accept` has not failed, connections to it change nothing: the
    program does what it does in C107 for the same moves of all others. The connections served are counted. -/
theorem C108_within (h : ManRun env c tr percent accept enabled (manStart c sub E flag) ls s)
    (hq : ∀ l ∈ ls, ¬ l.Trouble) :
    MonRun env c tr percent accept enabled (monStart c sub E flag) (monMoves ls) s.mon ∧
    s.served = ls.countP fun l => match l with
      | .connect true => true
      | _ => false := by
  obtain ⟨⟨t, h1, h2⟩, h3⟩ := ManInv.of_run h
  refine ⟨?_, h3⟩
  rcases h2 with ⟨e, -⟩ | ⟨-, before, l, e, hl, -⟩
  · rw [e]; exact h1
  · exact absurd hl (hq l (by rw [e]; exact List.mem_append_right _ List.mem_cons_self))

/-- C108, the code: trouble with the port is the last move of the process, and there is no other end but those of
    C107. -/
theorem C108_trouble (h : ManRun env c tr percent accept enabled (manStart c sub E flag) ls s)
    (ht : ∃ l ∈ ls, l.Trouble) :
    (∃ t before l, ls = before ++ [l] ∧ (∀ l ∈ before, ¬ l.Trouble) ∧
      MonRun env c tr percent accept enabled (monStart c sub E flag) (monMoves before) t ∧ s.mon = t.die) ∧
    ∀ l u, ¬ ManStep env c tr percent accept enabled s l u := by
  obtain ⟨⟨t, h1, h2⟩, -⟩ := ManInv.of_run h
  rcases h2 with ⟨-, hq⟩ | ⟨e, before, l, e2, hl, hq⟩
  · obtain ⟨l, hl, hl'⟩ := ht
    exact absurd hl' (hq l hl)
  · have em : monMoves ls = monMoves before := by
      rw [e2, monMoves_snoc]
      rcases hl with rfl | rfl <;> simp [monMoves]
    refine ⟨⟨t, before, l, e2, hq, em ▸ h1, e⟩, fun l u hs => ?_⟩
    have he : s.mon.prog.fc.ended = some .fatal := by rw [e]; rfl
    have dead : ¬ s.up := fun hu => by rw [hu.1] at he; cases he
    cases hs with
    | mon hs => rw [(monStep_alive hs).1] at he; cases he
    | listen hu => exact dead hu
    | noListen hu => exact dead hu
    | connect hu => exact dead hu
    | noConnect hu => exact dead hu
    | acceptFails hu => exact dead hu

/-- C108, the code: whatever the program is doing, it can be ended in this way at any moment. -/
theorem C108_any_moment (hu : s.up) : ∃ l : ManLabel, l.Trouble ∧
    ManStep env c tr percent accept enabled s l { s with mon := s.mon.die } := by
  by_cases hl : s.listening = true
  · exact ⟨_, .inr rfl, .acceptFails hu hl⟩
  · exact ⟨_, .inl rfl, .noListen hu (by simpa using hl)⟩

/-- C108, the code: for example in the middle of a search, with a batch waiting and nothing done. -/
theorem C108_sudden : ∃ (sub : Subs) (E : Engines) (ls : List ManLabel) (s : Managed (Nat × Nat)),
    (loadRecords statFile = some sub ∧ newEngines sampleBinutil.encoder sub sub sub sub = some E) ∧
    ManRun statEnv exactCode translate anyPercent (fun _ => true) true (manStart exactCode sub E none) ls s ∧
    s.mon.prog.fc.ended = some .fatal ∧ s.served = 1 ∧ s.mon.prog.fc.done = [] ∧ s.mon.prog.fc.batches.length = 2 ∧
    s.mon.prog.world.searcher ≠ .idle := by
  have h : ((loadRecords statFile).bind fun sub => (newEngines sampleBinutil.encoder sub sub sub sub).bind fun E =>
      (monExecs statEnv exactCode translate anyPercent (fun _ => true) true (monStart exactCode sub E none) stalling).map
      fun p => decide ((p.2.prog.fc.ended = none ∧ p.2.stat.dead = false ∧ p.2.prog.world.isActive = true) ∧
        p.2.prog.fc.done = [] ∧ p.2.prog.fc.batches.length = 2 ∧ p.2.prog.world.searcher ≠ .idle)) = some true := by
    decide +kernel
  obtain ⟨sub, hsub, h⟩ := Option.bind_eq_some_iff.mp h
  obtain ⟨E, hE, h⟩ := Option.bind_eq_some_iff.mp h
  obtain ⟨⟨ls, s⟩, hx, he⟩ := Option.map_eq_some_iff.mp h
  obtain ⟨hu, e1, e2, e3⟩ := of_decide_eq_true he
  have hrun := monExecs_sound _ (.nil _) hx
  exact ⟨sub, E, _, _, ⟨hsub, hE⟩, .snoc (.snoc (.snoc (man_of_mon hrun) (.listen hu rfl)) (.connect hu rfl))
    (.acceptFails hu rfl), rfl, rfl, e1, e2, e3⟩

/-- C108: `ale-ec` serves the connections up to the first failure of `Accept`, with which it returns. -/
theorem C108_ale (es : List Accepted) :
    (aleLoop es).1 = (es.takeWhile (· ≠ .failed)).count (.conn true) ∧ ((aleLoop es).2 = true ↔ .failed ∈ es) := by
  induction es with
  | nil => exact ⟨rfl, by simp [aleLoop]⟩
  | cons e es ih =>
    cases e with
    | failed => simp [aleLoop]
    | conn ok => cases ok <;> simp [aleLoop, ih.1, ih.2]

example : aleLoop [.conn true, .conn false, .conn true, .failed, .conn true] = (2, true) := by decide

/-- C108: `sixenc2bin` prints six bits for each character of its argument, from which the argument can be read off;
    the same for any further arguments. -/
theorem C108_sixenc (x : Binutil) (hx : x.Ok) (fmt : Str → Str) (hfmt : ∀ s, '%' ∉ s → fmt s = s) (name a : Str)
    (rest : List Str) (ha : SixBitChars a) :
    ∃ out, sixencMain x fmt (name :: a :: rest) = .done out ∧ SixBitText a out ∧
      ∀ b, SixBitChars b → sixencMain x fmt (name :: b :: rest) = .done out → b = a := by
  have run : ∀ a, SixBitChars a → sixencMain x fmt (name :: a :: rest) = .done (x.sixBits a) := by
    intro a ha
    have h : sixencMain x fmt (name :: a :: rest) = .done (fmt (x.sixenc2bin [] a)) := by
      unfold sixencMain
      simp
    rw [h, C80_sixenc, hfmt _ (sixBitText_of x hx a ha).noPercent]
  refine ⟨_, run a ha, sixBitText_of x hx a ha, fun b hb h => ?_⟩
  rw [run b hb] at h
  injection h with h
  exact (sixBitText_of x hx b hb).inj (h ▸ sixBitText_of x hx a ha) hb ha

/-- C108, the code: without an argument it panics; the text that one is needed is never printed. -/
theorem C108_sixenc_missing (x : Binutil) (fmt : Str → Str) (name : Str) (rest : List Str) :
    sixencMain x fmt [name] = .panic [] ∧
    (sixencMain x fmt (name :: rest) = .panic [] ∨
      ∃ a, rest.head? = some a ∧ sixencMain x fmt (name :: rest) = .done (fmt (x.sixBits a))) := by
  refine ⟨rfl, ?_⟩
  cases rest with
  | nil => exact .inl rfl
  | cons a rest =>
    refine .inr ⟨a, rfl, ?_⟩
    rw [← C80_sixenc]
    unfold sixencMain
    simp

example : sixencMain sampleBinutil id ["sixenc2bin".toList, "AB7".toList] = .done "000001000010110111".toList := by
  decide +kernel
example : SixBitChars "AB7".toList := by unfold SixBitChars; decide

end Gosstrak
