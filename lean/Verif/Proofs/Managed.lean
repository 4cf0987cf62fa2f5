import Verif.Spec.Managed
import Verif.Proofs.MonitoredExec
import Verif.Props.Generate

/-! Lemmas for C108. -/
namespace Gosstrak
variable {F : Type} {env : FcEnv} {c : Config F} {tr : Translator} {percent : Percent F} {accept : Point F → Bool}
  {enabled : Bool} {sub : Subs} {E : Engines} {flag : Option Int} {s t : Managed F} {l : ManLabel}
  {ls : List ManLabel}

theorem monMoves_snoc (ls : List ManLabel) (l : ManLabel) : monMoves (ls ++ [l]) = monMoves ls ++ monMoves [l] := by
  simp [monMoves]

theorem die_stuck (s : Monitored F) (l : MonLabel) (t : Monitored F) :
    ¬ MonStep env c tr percent accept enabled s.die l t := fun h => by
  have := (monStep_alive h).1
  cases this

/-- what is known of a run with the management port -/
structure ManInv (env : FcEnv) (c : Config F) (tr : Translator) (percent : Percent F) (accept : Point F → Bool)
    (enabled : Bool) (start : Monitored F) (ls : List ManLabel) (s : Managed F) : Prop where
  run : ∃ t, MonRun env c tr percent accept enabled start (monMoves ls) t ∧
    ((s.mon = t ∧ ∀ l ∈ ls, ¬ l.Trouble) ∨
      (s.mon = t.die ∧ ∃ before l, ls = before ++ [l] ∧ l.Trouble ∧ ∀ l ∈ before, ¬ l.Trouble))
  served : s.served = ls.countP fun l => match l with
    | .connect true => true
    | _ => false

theorem ManInv.step {start : Monitored F} (h : ManInv env c tr percent accept enabled start ls s)
    (hs : ManStep env c tr percent accept enabled s l t) :
    ManInv env c tr percent accept enabled start (ls ++ [l]) t := by
  obtain ⟨⟨u, h1, h2⟩, h3⟩ := h
  have live : s.mon.prog.fc.ended = none → s.mon = u ∧ ∀ l ∈ ls, ¬ l.Trouble := by
    intro he
    rcases h2 with h2 | ⟨e, -⟩
    · exact h2
    · rw [e] at he; cases he
  have quiet : ∀ {l : ManLabel}, (∀ l ∈ ls, ¬ l.Trouble) → ¬ l.Trouble → ∀ k ∈ ls ++ [l], ¬ k.Trouble := by
    intro l ha hb k hk
    rcases List.mem_append.mp hk with hk | hk
    · exact ha k hk
    · rw [List.mem_singleton.mp hk]; exact hb
  have same : ∀ {l : ManLabel}, monMoves [l] = [] → MonRun env c tr percent accept enabled start (monMoves (ls ++ [l])) u := by
    intro l e
    rw [monMoves_snoc, e, List.append_nil]
    exact h1
  cases hs with
  | @mon l w hs =>
    obtain ⟨e, hq⟩ := live (monStep_alive hs).1
    refine ⟨⟨w, ?_, .inl ⟨rfl, quiet hq (by rintro (h | h) <;> cases h)⟩⟩, by rw [List.countP_append]; exact h3⟩
    rw [monMoves_snoc]
    exact .snoc h1 (e ▸ hs)
  | listen hu hl =>
    obtain ⟨e, hq⟩ := live hu.1
    exact ⟨⟨u, same rfl, .inl ⟨e, quiet hq (by rintro (h | h) <;> cases h)⟩⟩, by rw [List.countP_append]; exact h3⟩
  | noListen hu hl =>
    obtain ⟨e, hq⟩ := live hu.1
    exact ⟨⟨u, same rfl, .inr ⟨by rw [← e], ls, _, rfl, .inl rfl, hq⟩⟩, by rw [List.countP_append]; exact h3⟩
  | connect hu hl =>
    obtain ⟨e, hq⟩ := live hu.1
    refine ⟨⟨u, same rfl, .inl ⟨e, quiet hq (by rintro (h | h) <;> cases h)⟩⟩, ?_⟩
    rw [List.countP_append]
    show s.served + 1 = _
    rw [h3]
    rfl
  | noConnect hu hl =>
    obtain ⟨e, hq⟩ := live hu.1
    exact ⟨⟨u, same rfl, .inl ⟨e, quiet hq (by rintro (h | h) <;> cases h)⟩⟩, by rw [List.countP_append]; exact h3⟩
  | acceptFails hu hl =>
    obtain ⟨e, hq⟩ := live hu.1
    exact ⟨⟨u, same rfl, .inr ⟨by rw [← e], ls, _, rfl, .inr rfl, hq⟩⟩, by rw [List.countP_append]; exact h3⟩

theorem ManInv.of_run (h : ManRun env c tr percent accept enabled (manStart c sub E flag) ls s) :
    ManInv env c tr percent accept enabled (monStart c sub E flag) ls s := by
  induction h with
  | nil => exact ⟨⟨_, .nil _, .inl ⟨rfl, fun l hl => nomatch hl⟩⟩, rfl⟩
  | snoc _ hs ih => exact ih.step hs

/-- a run without the management port is one with it -/
theorem man_of_mon {s0 s : Monitored F} {ls : List MonLabel} {b : Bool} {n : Nat}
    (h : MonRun env c tr percent accept enabled s0 ls s) :
    ManRun env c tr percent accept enabled ⟨s0, b, n⟩ (ls.map .mon) ⟨s, b, n⟩ := by
  induction h with
  | nil => exact .nil _
  | snoc _ hs ih =>
    rw [List.map_append]
    exact .snoc ih (.mon hs)

theorem sixBitText_of (x : Binutil) (hx : x.Ok) : ∀ a, SixBitChars a → SixBitText a (x.sixBits a)
  | [], _ => .nil
  | c :: a, h => by
    rw [sixBits_cons]
    have hc := h c List.mem_cons_self
    exact .cons (hx.sixBit c hc.1 hc.2) (sixBitText_of x hx a fun d hd => h d (List.mem_cons_of_mem _ hd))

theorem SixBitText.length {a out : Str} (h : SixBitText a out) : out.length = 6 * a.length := by
  induction h with
  | nil => rfl
  | cons h t ih => rw [List.length_append, h.2.1, ih, List.length_cons]; omega

theorem SixBitText.noPercent {a out : Str} (h : SixBitText a out) : '%' ∉ out := by
  induction h with
  | nil => nofun
  | cons h t ih =>
    intro hm
    rcases List.mem_append.mp hm with hm | hm
    · have := h.1 _ hm
      revert this
      decide
    · exact ih hm

theorem SixBitText.inj {a b out : Str} (h1 : SixBitText a out) (h2 : SixBitText b out) (ha : SixBitChars a)
    (hb : SixBitChars b) : a = b := by
  induction h1 generalizing b with
  | nil =>
    have := h2.length
    cases b with
    | nil => rfl
    | cons c b => simp at this
  | @cons c bits a out h t ih =>
    generalize e : bits ++ out = o at h2
    cases h2 with
    | nil =>
      have := congrArg List.length e
      rw [List.length_append, h.2.1] at this
      simp at this
    | @cons d bits' b out' h' t' =>
      obtain ⟨e1, e2⟩ := List.append_inj e (by rw [h.2.1, h'.2.1])
      have hc := ha c List.mem_cons_self
      have hd := hb d List.mem_cons_self
      have e3 : c.toNat % 64 = d.toNat % 64 := by rw [← h.2.2, ← h'.2.2, e1]
      have e4 : c = d := Char.toNat_inj.mp (by omega)
      rw [e4, ih (e2 ▸ t') (fun x hx => ha x (List.mem_cons_of_mem _ hx)) fun x hx => hb x (List.mem_cons_of_mem _ hx)]

end Gosstrak
