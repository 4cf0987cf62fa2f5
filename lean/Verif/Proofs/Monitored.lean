import Verif.Spec.Monitored
import Verif.Props.Whole
import Verif.Props.Watched

/-! Lemmas for C107. -/
namespace Gosstrak
open World
variable {F : Type} {env : FcEnv} {c : Config F} {tr : Translator} {percent : Percent F} {accept : Point F → Bool}
  {enabled : Bool} {sub : Subs} {E : Engines} {flag : Option Int} {s t : Monitored F} {l : MonLabel}
  {ls : List MonLabel}

/-- the move as one of the factory, the two goroutines and the database -/
def MonLabel.watchOf : MonLabel → Option WatchLabel
  | .prog (.factory k) => some (.world k)
  | .prog _ => none
  | .watch k => some k

theorem moved_world (p : Prog F) (w : World F) : (p.moved w).world = w := rfl

theorem progStep_world {p q : Prog F} {l : ProgLabel} (h : ProgStep env c tr p l q) :
    (q.world = p.world ∧ ∀ k, l ≠ .factory k) ∨ ∃ k, l = .factory k ∧ World.step c p.world k = some q.world := by
  cases h with
  | fc ha hf => exact .inl ⟨rfl, nofun⟩
  | aside he hl hw => exact .inr ⟨_, rfl, hw⟩
  | call he hl hw => exact .inr ⟨_, rfl, hw⟩
  | choose he hs hw => exact .inr ⟨_, rfl, hw⟩
  | engine he hl hs hq hw => exact .inr ⟨_, rfl, hw⟩
  | panic => exact .inl ⟨rfl, nofun⟩
  | ret he hl hs hq hw => exact .inr ⟨_, rfl, hw⟩

theorem progStep_running {p q : Prog F} {l : ProgLabel} (h : ProgStep env c tr p l q) : p.fc.ended = none := by
  cases h with
  | fc ha hf => cases hf <;> assumption
  | _ => assumption

theorem monStep_alive (h : MonStep env c tr percent accept enabled s l t) :
    s.prog.fc.ended = none ∧ s.stat.dead = false := by
  cases h with
  | prog hd hl hs => exact ⟨progStep_running hs, hd⟩
  | watch he hd => exact ⟨he, hd⟩

theorem monStep_watched (h : MonStep env c tr percent accept enabled s l t) :
    (l.watchOf = none ∧ t.watched = s.watched) ∨
      ∃ k, l.watchOf = some k ∧ Watched.step c percent accept enabled s.watched k = some t.watched := by
  cases h with
  | @prog l p hd hl hs =>
    rcases progStep_world hs with ⟨e, hk⟩ | ⟨k, rfl, e⟩
    · refine .inl ⟨?_, by show (⟨_, _, _, _⟩ : Watched F) = _; rw [e]; rfl⟩
      cases l with
      | factory k => exact absurd rfl (hk k)
      | _ => rfl
    · refine .inr ⟨.world k, rfl, ?_⟩
      have : k ≠ .mainRecv := fun e => hl (by rw [e])
      show (if k = .mainRecv then none else (World.step c s.prog.world k).map _) = _
      rw [if_neg this, e]
      rfl
  | watch he hd hl hs => exact .inr ⟨_, rfl, hs⟩

theorem mon_watched (hf : c.floats.Lawful) (hn : [] ∉ c.names)
    (h : MonRun env c tr percent accept enabled (monStart c sub E flag) ls s) :
    Watched.Reaches c percent accept enabled sub s.watched := by
  induction h with
  | nil => exact ⟨[], rfl⟩
  | snoc _ hs ih =>
    have hc := C53_no_crash hf hn (Watched.world_reaches ih)
    rcases monStep_watched hs with ⟨-, e⟩ | ⟨k, -, e⟩
    · rw [e]; exact ih
    · exact Watched.reaches_step ih ⟨hc, (monStep_alive hs).2⟩ e

theorem fcMoves_snoc (ls : List ProgLabel) (l : ProgLabel) : fcMoves (ls ++ [l]) = fcMoves ls ++ fcMoves [l] := by
  simp [fcMoves]

/-- without the statistics the program can do the same -/
theorem mon_prog (hf : c.floats.Lawful) (hn : [] ∉ c.names)
    (h : MonRun env c tr percent accept enabled (monStart c sub E flag) ls s) :
    ∃ ls', ProgRun env c tr (progStart c sub E flag) ls' s.prog ∧ fcMoves ls' = readerMoves ls := by
  induction h with
  | nil => exact ⟨[], .nil _, rfl⟩
  | @snoc t u ls l hr hs ih =>
    obtain ⟨ls', h1, h2⟩ := ih
    have e : readerMoves (ls ++ [l]) = readerMoves ls ++ readerMoves [l] := by simp [readerMoves]
    rw [e]
    cases hs with
    | @prog l p hd hl hs =>
      refine ⟨ls' ++ [l], .snoc h1 hs, ?_⟩
      rw [fcMoves_snoc, h2]
      cases l <;> rfl
    | @watch l r he hd hl hs =>
      rcases Watched.world_step hs with e | ⟨k, hk, h3⟩
      · refine ⟨ls', ?_, by rw [h2]; simp [readerMoves]⟩
        show ProgRun env c tr _ ls' { t.prog with world := r.world }
        rw [e]
        exact h1
      · rcases h3 with rfl | ⟨rfl, rfl⟩
        · exact absurd rfl (hl k)
        · have hc := C53_no_crash hf hn (reaches_step (prog_reaches hf hn h1)
            (C53_no_crash hf hn (prog_reaches hf hn h1)) hk)
          refine ⟨ls' ++ [.factory .mainRecv], ?_, by rw [fcMoves_snoc, h2]; rfl⟩
          have := ProgRun.snoc h1 (ProgStep.aside (env := env) (tr := tr) (l := .mainRecv) he trivial hk)
          rw [moved_eq hc] at this
          exact this

theorem bytesFrom_eq (ls : List MonLabel) : bytesFrom ls = arrivedIn (readerMoves ls) := by
  induction ls with
  | nil => rfl
  | cons l ls ih =>
    have e : bytesFrom (l :: ls) = bytesFrom [l] ++ bytesFrom ls := by simp [bytesFrom]
    rw [e, ih]
    rcases l with (l | l | _) | l
    · cases l <;> simp [readerMoves, arrivedIn, bytesFrom]
    · simp [readerMoves, arrivedIn, bytesFrom]
    · simp [readerMoves, arrivedIn, bytesFrom]
    · simp [readerMoves, arrivedIn, bytesFrom]

/-- what a move does to what has been written and done -/
theorem monStep_grows (h : MonStep env c tr percent accept enabled s l t) :
    s.prog.fc.written <+: t.prog.fc.written ∧ s.prog.fc.done <+: t.prog.fc.done := by
  cases h with
  | prog hd hl hs =>
    cases hs with
    | fc ha hf =>
      cases hf with
      | @read h mid body rest a he hm hr ha =>
        unfold fcAct
        cases a with
        | report b => dsimp only; split <;> exact ⟨List.prefix_rfl, List.prefix_rfl⟩
        | logOnly => exact ⟨List.prefix_rfl, List.prefix_rfl⟩
        | _ => exact ⟨List.prefix_append .., List.prefix_rfl⟩
      | finish => exact ⟨List.prefix_rfl, List.prefix_append ..⟩
      | _ => exact ⟨List.prefix_rfl, List.prefix_rfl⟩
    | _ =>
      first
        | exact ⟨List.prefix_rfl, List.prefix_rfl⟩
        | (unfold Prog.moved; dsimp only; split <;> exact ⟨List.prefix_rfl, List.prefix_rfl⟩)
  | watch => exact ⟨List.prefix_rfl, List.prefix_rfl⟩

/-- a move at which no search returns -/
theorem monStep_listener (h : MonStep env c tr percent accept enabled s l t)
    (hl : ∀ k, l ≠ .prog (.factory (.track k))) :
    (t.prog.fc.listener = s.prog.fc.listener ∧ t.prog.fc.done = s.prog.fc.done) ∨
    (∃ batch, s.prog.fc.listener = .waiting ∧ t.prog.fc.listener = .searching batch batch [] ∧
      t.prog.fc.done = s.prog.fc.done) ∨
    ∃ batch reports, s.prog.fc.listener = .searching batch [] reports ∧ t.prog.fc.listener = .waiting ∧
      t.prog.fc.done = s.prog.fc.done ++ [(batch, reports)] := by
  have moved : ∀ (p : Prog F) (w : World F), (p.moved w).fc.listener = p.fc.listener ∧
      (p.moved w).fc.done = p.fc.done := fun p w => by
    unfold Prog.moved; dsimp only; split <;> exact ⟨rfl, rfl⟩
  cases h with
  | prog hd hl' hs =>
    cases hs with
    | fc ha hf =>
      cases hf with
      | @read h mid body rest a he hm hr ha =>
        left
        unfold fcAct
        cases a with
        | report b => dsimp only; split <;> exact ⟨rfl, rfl⟩
        | _ => exact ⟨rfl, rfl⟩
      | hand he hm hx => exact .inr (.inl ⟨_, hx, rfl, rfl⟩)
      | finish he hx => exact .inr (.inr ⟨_, _, hx, rfl, rfl⟩)
      | search _ _ ha => exact ha.elim
      | crash _ _ ha => exact ha.elim
      | _ => exact .inl ⟨rfl, rfl⟩
    | aside he hl hw => exact .inl (moved _ _)
    | call he hl hw => exact .inl (moved _ _)
    | choose he hs hw => exact .inl (moved _ _)
    | engine he hl hs hq hw => exact .inl (moved _ _)
    | panic => exact .inl ⟨rfl, rfl⟩
    | ret => exact absurd rfl (hl _)
  | watch => exact .inl ⟨rfl, rfl⟩

/-- more bytes do not change the messages that have come whole -/
theorem llrpLoop_prefix (hs : LlrpHeaders) : ∀ (s t : List Byte), (llrpLoop hs s).1 <+: (llrpLoop hs (s ++ t)).1
  | s, t => by
    cases e : readMessage s with
    | none => rw [llrpLoop_none e]; exact List.nil_prefix
    | some r =>
      obtain ⟨hd, mid, body, rest⟩ := r
      have hlt := readMessage_shorter e
      rw [llrpLoop_some e, llrpLoop_some (readMessage_append e t)]
      cases llrpSwitch hs hd body with
      | none => exact List.prefix_rfl
      | some a => exact List.cons_prefix_cons.mpr ⟨rfl, llrpLoop_prefix hs rest t⟩
termination_by s => s.length

/-- as many batches with tags as reports with tags -/
theorem tagReports_eq {as : List LlrpAction} {batches : List (List ReadEvent)}
    (h : batches.map some = (reportBodies as).map env.decode) :
    tagReports env as = (batches.filter fun b => !b.isEmpty).length := by
  unfold tagReports
  generalize reportBodies as = bs at h
  induction bs generalizing batches with
  | nil =>
    cases batches with
    | nil => rfl
    | cons b batches => cases h
  | cons b bs ih =>
    cases batches with
    | nil => cases h
    | cons x batches =>
      simp only [List.map_cons, List.cons.injEq] at h
      have := ih h.2
      cases x with
      | nil => simp [hasTags, ← h.1, this]
      | cons e x => simp [hasTags, ← h.1, this]

/-- what a move does, seen over an execution -/
theorem prefix_chain {α : Type} (f : Nat → List α) (h : ∀ i, f i <+: f (i + 1)) (i d : Nat) : f i <+: f (i + d) := by
  induction d with
  | zero => exact List.prefix_rfl
  | succ d ih => exact ih.trans (h (i + d))

end Gosstrak
