import Verif.Proofs.Monitored

/-!
A way to carry out moves of the whole program with statistics, for the cases beside the theorems.
-/
namespace Gosstrak
variable {F : Type}

/-- what the program can be told to do in a test -/
inductive MonOrder where
  | prog (o : ProgOrder)
  | watch (l : WatchLabel)

/-- the move and the state after it -/
def monExec (env : FcEnv) (c : Config F) (tr : Translator) (percent : Percent F) (accept : Point F → Bool)
    (enabled : Bool) (s : Monitored F) : MonOrder → Option (MonLabel × Monitored F)
  | .prog o =>
    if s.stat.dead then none
    else match progExec env c tr s.prog o with
      | some (.factory .mainRecv, _) => none
      | some (l, p) => some (.prog l, { s with prog := p })
      | none => none
  | .watch (.world _) => none
  | .watch l =>
    if s.prog.fc.ended = none ∧ s.stat.dead = false then
      (Watched.step c percent accept enabled s.watched l).map fun r =>
        (.watch l, ⟨{ s.prog with world := r.world }, r.holding, r.stat, r.writing⟩)
    else none

variable {env : FcEnv} {c : Config F} {tr : Translator} {percent : Percent F} {accept : Point F → Bool}
  {enabled : Bool}

theorem monExec_sound {s t : Monitored F} {o : MonOrder} {l : MonLabel}
    (h : monExec env c tr percent accept enabled s o = some (l, t)) : MonStep env c tr percent accept enabled s l t := by
  unfold monExec at h
  split at h
  · split at h
    · cases h
    · rename_i hd
      split at h
      · cases h
      · rename_i l' p hne e
        cases h
        refine .prog (by simpa using hd) (fun e' => ?_) (progExec_sound e)
        subst e'
        exact hne rfl
      · cases h
  · cases h
  · rename_i l' hl
    split at h
    · rename_i hc
      obtain ⟨r, h1, h2⟩ := Option.map_eq_some_iff.mp h
      cases h2
      exact .watch hc.1 hc.2 (fun k e => hl k e) h1
    · cases h

/-- several moves -/
def monExecs (env : FcEnv) (c : Config F) (tr : Translator) (percent : Percent F) (accept : Point F → Bool)
    (enabled : Bool) : Monitored F → List MonOrder → Option (List MonLabel × Monitored F)
  | s, [] => some ([], s)
  | s, o :: os =>
    match monExec env c tr percent accept enabled s o with
    | none => none
    | some (l, t) => (monExecs env c tr percent accept enabled t os).map fun p => (l :: p.1, p.2)

theorem monExecs_sound {s0 : Monitored F} :
    ∀ (os : List MonOrder) {s t : Monitored F} {ls0 ls : List MonLabel},
      MonRun env c tr percent accept enabled s0 ls0 s → monExecs env c tr percent accept enabled s os = some (ls, t) →
      MonRun env c tr percent accept enabled s0 (ls0 ++ ls) t
  | [], s, t, ls0, ls, h0, h => by
    cases h
    rw [List.append_nil]
    exact h0
  | o :: os, s, t, ls0, ls, h0, h => by
    unfold monExecs at h
    split at h
    · cases h
    · rename_i l u e
      obtain ⟨p, h1, h2⟩ := Option.map_eq_some_iff.mp h
      cases h2
      have := monExecs_sound os (.snoc h0 (monExec_sound e)) h1
      rw [List.append_assoc] at this
      exact this

end Gosstrak
