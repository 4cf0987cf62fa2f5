import Verif.Spec.Whole
import Verif.Proofs.Engines
import Verif.Props.FactoryRest

namespace Gosstrak

open World

variable {F : Type} {env : FcEnv} {c : Config F} {tr : Translator} {sub : Subs}

/-- how far a call of `Search` is -/
inductive Stage where
  | idle
  | before
  | last (n : Str)
  | over (n : Str)

def Searcher.stage : Searcher → Stage
  | .idle => .idle
  | .range _ => .before
  | .call _ (some _) => .before
  | .call n none => .last n
  | .readMatched _ (some _) => .before
  | .readMatched n none => .over n
  | .writeMatched _ (some _) _ => .before
  | .writeMatched n none _ => .over n
  | .track _ (some _) => .before
  | .track n none => .over n

theorem aside_stage {w w' : World F} {l : Label} (hl : l.Aside w) (hs : World.step c w l = some w') :
    w'.searcher.stage = w.searcher.stage := by
  cases l with
  | search => exact hl.elim
  | engineSearch => exact hl.elim
  | listener =>
    simp only [World.step, World.listenerStep] at hs
    split at hs
    case h_7 m e =>
      obtain ⟨w1, h1, rfl⟩ := Option.map_eq_some_iff.mp hs
      rw [push_eq h1]
    all_goals (repeat' split at hs) <;> cases hs <;> rfl
  | selector =>
    simp only [World.step, World.selectorStep] at hs
    split at hs
    case h_7 m e =>
      obtain ⟨w1, h1, rfl⟩ := Option.map_eq_some_iff.mp hs
      rw [push_eq h1]
    all_goals (repeat' split at hs) <;> cases hs <;> rfl
  | manageAdd p u => rw [push_eq (m := .add p u) hs]
  | manageDelete p u => rw [push_eq (m := .delete p u) hs]
  | searchNext =>
    simp only [World.step] at hs
    split at hs
    · rename_i e
      split at hs <;> cases hs <;> rw [e] <;> rfl
    · rename_i e; exact absurd e hl
    · cases hs
  | readMatched =>
    simp only [World.step] at hs
    split at hs
    · rename_i n rest e
      cases hs
      rw [e]
      cases rest <;> rfl
    · cases hs
  | writeMatched =>
    simp only [World.step] at hs
    split at hs
    · rename_i n rest m e
      cases hs
      rw [e]
      cases rest <;> rfl
    · cases hs
  | track t =>
    simp only [World.step] at hs
    split at hs
    · rename_i n rest e
      cases rest with
      | none => exact absurd e (hl n)
      | some rest =>
        split at hs
        · cases hs; rw [e]; rfl
        · cases hs
    · cases hs
  | _ =>
    simp only [World.step] at hs
    (repeat' split at hs) <;> cases hs <;> rfl

/-- engines searched so far in a call -/
def Partial (tr : Translator) (e : ReadEvent) (E0 E : Engines) : Prop :=
  ∀ sel r, (∃ more, FactorySearch tr e sel E more r) → ∃ more, FactorySearch tr e sel E0 more r

theorem Partial.step {e : ReadEvent} {E0 E E' : Engines} {n : EngineName} {q : SearchResult}
    (h : Partial tr e E0 E) (hs : EngineSearch tr E e n (some (q, E'))) : Partial tr e E0 E' := by
  rintro sel r ⟨more, hm⟩
  exact h sel r ⟨n :: more, .other hs hm⟩

/-- `E0` are the engines as they were when the call began -/
def Mid (tr : Translator) (E0 : Engines) (s : Prog F) : Prop :=
  match s.world.searcher.stage with
  | .idle => E0 = s.fc.factory
  | .before => ∃ b e t r, s.fc.listener = .searching b (e :: t) r ∧ Partial tr e E0 s.fc.factory
  | .last n => ∃ b e t r, s.fc.listener = .searching b (e :: t) r ∧ Partial tr e E0 s.fc.factory ∧ n ∈ s.chosen
  | .over n => ∃ b e t r, s.fc.listener = .searching b (e :: t) r ∧ n ∈ s.chosen ∧
      ∃ (m : EngineName) (q : SearchResult) (E1 : Engines), m.text = n ∧ Partial tr e E0 E1 ∧
        EngineSearch tr E1 e m (some (q, s.fc.factory)) ∧ s.answer = some q

theorem fcAct_factory (env : FcEnv) (s : Fc Engines) (E0 : Engines) (a : LlrpAction) :
    fcAct env { s with factory := E0 } a = { fcAct env s a with factory := E0 } := by
  cases a with
  | report body =>
    unfold fcAct
    dsimp only
    cases env.decode body <;> rfl
  | _ => rfl

theorem fcAct_same (env : FcEnv) (s : Fc Engines) (a : LlrpAction) :
    (fcAct env s a).factory = s.factory ∧ (fcAct env s a).listener = s.listener := by
  cases a with
  | report body =>
    unfold fcAct
    dsimp only
    cases env.decode body <;> exact ⟨rfl, rfl⟩
  | _ => exact ⟨rfl, rfl⟩

/-- a move outside of a search, with whatever engines -/
theorem fc_noAnswer {s f : Fc Engines} {l : FcLabel} (h : FcStep env noAnswer s l f) (E0 : Engines)
    (ans : AnswerRel Engines) :
    FcStep env ans { s with factory := E0 } l { f with factory := E0 } ∧ s.ended = none ∧ f.factory = s.factory ∧
      ∀ b e t r, s.listener = .searching b (e :: t) r → f.listener = s.listener := by
  cases h with
  | arrive he => exact ⟨.arrive he, he, rfl, fun _ _ _ _ _ => rfl⟩
  | eof he hm hr => exact ⟨.eof he hm hr, he, rfl, fun _ _ _ _ _ => rfl⟩
  | @read _ mid body rest a he hm hr ha =>
    refine ⟨?_, he, (fcAct_same _ _ _).1, fun _ _ _ _ _ => (fcAct_same _ _ _).2⟩
    rw [← fcAct_factory]
    exact FcStep.read (s := { s with factory := E0 }) he hm hr ha
  | unknown he hm hr ha =>
    exact ⟨FcStep.unknown (s := { s with factory := E0 }) he hm hr ha, he, rfl, fun _ _ _ _ _ => rfl⟩
  | hand he hm hl =>
    exact ⟨FcStep.hand (s := { s with factory := E0 }) he hm hl, he, rfl,
      fun _ _ _ _ h => by rw [hl] at h; cases h⟩
  | search he hl ha => exact ha.elim
  | crash he hl ha => exact ha.elim
  | finish he hl =>
    exact ⟨FcStep.finish (s := { s with factory := E0 }) he hl, he, rfl,
      fun _ _ _ _ h => by rw [hl] at h; cases h⟩

theorem prog_reaches (hf : c.floats.Lawful) (hn : [] ∉ c.names) {E : Engines} {flag : Option Int}
    {ls : List ProgLabel} {s : Prog F} (h : ProgRun env c tr (progStart c sub E flag) ls s) :
    Reaches c sub s.world := by
  induction h with
  | nil => exact ⟨[], rfl⟩
  | snoc _ hs ih =>
    have hc := C53_no_crash hf hn ih
    cases hs with
    | fc ha hf' => exact ih
    | aside he hl hw => exact reaches_step ih hc hw
    | call he hl hw => exact reaches_step ih hc hw
    | choose he hs hw => exact reaches_step ih hc hw
    | engine he hl hs hq hw => exact reaches_step ih hc hw
    | panic => exact ih
    | ret he hl hs hq hw => exact reaches_step ih hc hw

theorem moved_eq {s : Prog F} {w : World F} (h : w.crashed = false) : s.moved w = { s with world := w } := by
  unfold Prog.moved
  rw [h]
  rfl

theorem fcMoves_append (ls ls' : List ProgLabel) : fcMoves (ls ++ ls') = fcMoves ls ++ fcMoves ls' :=
  List.filterMap_append

theorem arrivedIn_snoc (ls : List FcLabel) (l : FcLabel) :
    arrivedIn (ls ++ [l]) = arrivedIn ls ++ arrivedIn [l] := by
  unfold arrivedIn
  rw [List.flatMap_append]

/-- What the whole program does is what the program of `Model/FcRun.lean` does with the factory search of
    `Model/Engines.lean`. -/
theorem prog_refines (hf : c.floats.Lawful) (hn : [] ∉ c.names) {P : EngineName → Prop} (hsome : ∃ m, P m)
    {E : Engines} {flag : Option Int} {ls : List ProgLabel} {s : Prog F}
    (h : ProgRun env c tr (progStart c sub E flag) ls s) (hP : ∀ m : EngineName, m.text ∈ s.chosen → P m) :
    ∃ fl E0, FcRun env (enginesAnswer tr fun _ m => P m) (fcStart E flag) fl { s.fc with factory := E0 } ∧
      arrivedIn fl = arrivedIn (fcMoves ls) ∧ (FcLabel.eof ∈ fl ↔ .eof ∈ fcMoves ls) ∧
      (s.fc.ended = none → Mid tr E0 s) := by
  induction h with
  | nil => exact ⟨[], E, .nil _, rfl, Iff.rfl, fun _ => rfl⟩
  | @snoc s u ls l h hs ih =>
    have hr := prog_reaches hf hn h
    have hc := C53_no_crash hf hn hr
    have quiet : ∀ l, fcMoves (ls ++ [ProgLabel.factory l]) = fcMoves ls := fun l => by
      rw [fcMoves_append]; exact List.append_nil _
    cases hs with
    | @fc l f ha hf' =>
      obtain ⟨fl, E0, h1, h2, h3, h4⟩ := ih hP
      obtain ⟨g1, g2, g3, g4⟩ := fc_noAnswer hf' E0 (enginesAnswer tr fun _ m => P m)
      have e1 : fcMoves (ls ++ [ProgLabel.fc l]) = fcMoves ls ++ [l] := by rw [fcMoves_append]; rfl
      refine ⟨fl ++ [l], E0, .snoc h1 g1, ?_, ?_, fun _ => ?_⟩
      · rw [e1, arrivedIn_snoc, arrivedIn_snoc, h2]
      · rw [e1, List.mem_append, List.mem_append, h3]
      · have := h4 g2
        unfold Mid at this ⊢
        dsimp only
        split
        · rename_i e
          rw [e] at this
          rw [g3]; exact this
        · rename_i e
          rw [e] at this
          obtain ⟨b, e, t, r, a1, a2⟩ := this
          exact ⟨b, e, t, r, by rw [g4 b e t r a1]; exact a1, by rw [g3]; exact a2⟩
        · rename_i e
          rw [e] at this
          obtain ⟨b, e, t, r, a1, a2, a3⟩ := this
          exact ⟨b, e, t, r, by rw [g4 b e t r a1]; exact a1, by rw [g3]; exact a2, a3⟩
        · rename_i e
          rw [e] at this
          obtain ⟨b, e, t, r, a1, a2, m, q, E1, a3, a4, a5, a6⟩ := this
          exact ⟨b, e, t, r, by rw [g4 b e t r a1]; exact a1, a2, m, q, E1, a3, a4, by rw [g3]; exact a5, a6⟩
    | @aside l w he hl hw =>
      have hc' := C53_no_crash hf hn (reaches_step hr hc hw)
      rw [moved_eq hc'] at hP ⊢
      obtain ⟨fl, E0, h1, h2, h3, h4⟩ := ih hP
      refine ⟨fl, E0, h1, by rw [quiet]; exact h2, by rw [quiet]; exact h3, fun _ => ?_⟩
      have := h4 he
      unfold Mid at this ⊢
      rw [aside_stage hl hw]
      exact this
    | @call order w batch todo e reports he hl hw =>
      have hc' := C53_no_crash hf hn (reaches_step hr hc hw)
      rw [moved_eq hc'] at hP ⊢
      obtain ⟨fl, E0, h1, h2, h3, h4⟩ := ih hP
      refine ⟨fl, E0, h1, by rw [quiet]; exact h2, by rw [quiet]; exact h3, fun _ => ?_⟩
      have hm := h4 he
      simp only [World.step] at hw
      split at hw
      · rename_i e0
        split at hw
        · cases hw
          unfold Mid at hm ⊢
          rw [e0] at hm
          refine ⟨batch, e, todo, reports, hl, ?_⟩
          have : E0 = s.fc.factory := hm
          rw [this]
          exact fun _ _ h => h
        · cases hw
      · cases hw
    | @choose w he hs' hw =>
      have hc' := C53_no_crash hf hn (reaches_step hr hc hw)
      rw [moved_eq hc'] at hP ⊢
      obtain ⟨fl, E0, h1, h2, h3, h4⟩ := ih fun m hm => hP m (List.mem_append_left _ hm)
      refine ⟨fl, E0, h1, by rw [quiet]; exact h2, by rw [quiet]; exact h3, fun _ => ?_⟩
      have hm := h4 he
      simp only [World.step, hs'] at hw
      split at hw
      · cases hw
        unfold Mid at hm ⊢
        rw [hs'] at hm
        obtain ⟨b, e, t, r, a1, a2⟩ := hm
        exact ⟨b, e, t, r, a1, a2, List.mem_append_right _ (List.mem_singleton.mpr rfl)⟩
      · cases hw; cases hc'
    | @engine w batch todo e reports n rest q E' he hl hs' hq hw =>
      have hc' := C53_no_crash hf hn (reaches_step hr hc hw)
      rw [moved_eq hc'] at hP ⊢
      obtain ⟨fl, E0, h1, h2, h3, h4⟩ := ih hP
      refine ⟨fl, E0, h1, by rw [quiet]; exact h2, by rw [quiet]; exact h3, fun _ => ?_⟩
      have hm := h4 he
      have hst : w.searcher.stage = match rest with
          | none => .over n.text
          | some _ => .before := by
        simp only [World.step, hs'] at hw
        split at hw
        · cases hw; cases hc'
        · split at hw <;> cases hw <;> cases rest <;> rfl
      unfold Mid at hm ⊢
      dsimp only
      rw [hst]
      rw [hs'] at hm
      cases rest with
      | none =>
        obtain ⟨b, e', t, r, a1, a2, a3⟩ := hm
        rw [hl] at a1
        cases a1
        exact ⟨_, _, _, _, hl, a3, n, q, _, rfl, a2, hq, rfl⟩
      | some rest =>
        obtain ⟨b, e', t, r, a1, a2⟩ := hm
        rw [hl] at a1
        cases a1
        exact ⟨_, _, _, _, hl, a2.step hq⟩
    | @panic batch todo e reports n rest he hl hs' hq =>
      obtain ⟨fl, E0, h1, h2, h3, h4⟩ := ih hP
      have hm := h4 he
      have e1 : fcMoves (ls ++ [ProgLabel.panic]) = fcMoves ls := by rw [fcMoves_append]; exact List.append_nil _
      have ha : enginesAnswer tr (fun _ m => P m) E0 e none := by
        unfold Mid at hm
        rw [hs'] at hm
        cases rest with
        | none =>
          obtain ⟨b, e', t, r, a1, a2, a3⟩ := hm
          rw [hl] at a1
          cases a1
          obtain ⟨more, h⟩ := a2 n none ⟨[], .selected hq⟩
          exact ⟨more, n, hP n a3, h⟩
        | some rest =>
          obtain ⟨b, e', t, r, a1, a2⟩ := hm
          rw [hl] at a1
          cases a1
          obtain ⟨m, hm⟩ := hsome
          obtain ⟨more, h⟩ := a2 m none ⟨[n], .panic hq⟩
          exact ⟨more, m, hm, h⟩
      refine ⟨fl ++ [.search none], E0, .snoc h1 (FcStep.crash (s := { s.fc with factory := E0 }) he hl ha), ?_, ?_,
        fun h0 => by cases h0⟩
      · rw [e1, arrivedIn_snoc, h2]; exact List.append_nil _
      · rw [e1, ← h3]; simp
    | @ret t w batch todo e reports n q he hl hs' hq hw =>
      obtain ⟨fl, E0, h1, h2, h3, h4⟩ := ih hP
      have hm := h4 he
      unfold Mid at hm
      rw [hs'] at hm
      obtain ⟨b, e', t', r, a1, a2, m, q', E1, a3, a4, a5, a6⟩ := hm
      rw [hl] at a1
      cases a1
      rw [hq] at a6
      cases a6
      obtain ⟨more, hfs⟩ := a4 m _ ⟨[], .selected a5⟩
      have ha : enginesAnswer tr (fun _ m => P m) E0 e (some (q, s.fc.factory)) :=
        ⟨more, m, hP m (a3 ▸ a2), hfs⟩
      refine ⟨fl ++ [.search (some q)], s.fc.factory,
        .snoc h1 (FcStep.search (s := { s.fc with factory := E0 }) he hl ha), ?_, ?_, fun _ => ?_⟩
      · rw [quiet, arrivedIn_snoc, h2]; exact List.append_nil _
      · rw [quiet, ← h3]; simp
      · simp only [World.step, hs'] at hw
        split at hw
        · cases hw; rfl
        · cases hw

end Gosstrak
