import Verif.Spec.FcRun
import Verif.Proofs.Main

namespace Gosstrak

variable {σ : Type} {env : FcEnv} {ans : AnswerRel σ}

theorem repliesTo_append (id : BitVec 32) (as bs : List LlrpAction) :
    repliesTo id (as ++ bs) = repliesTo id as ++ repliesTo id bs := List.filterMap_append

theorem reportBodies_append (as bs : List LlrpAction) :
    reportBodies (as ++ bs) = reportBodies as ++ reportBodies bs := List.filterMap_append

theorem arrivedIn_append (as bs : List FcLabel) :
    arrivedIn (as ++ bs) = arrivedIn as ++ arrivedIn bs := List.flatMap_append

/-- a message taken from a stream is its start, and is taken from whatever follows it -/
theorem readMessage_split {s : List Byte} {h mid : Nat} {body rest : List Byte}
    (hr : readMessage s = some (h, mid, body, rest)) :
    ∃ m, s = m ++ rest ∧ ∀ r, readMessage (m ++ r) = some (h, mid, body, r) := by
  have hm : ∃ m, s = m ++ rest ∧ readMessage m = some (h, mid, body, []) := by
    unfold readMessage at hr
    split at hr
    · cases hr
    rename_i h10
    dsimp only at hr
    split at hr
    · cases hr
    rename_i hs
    simp only [Option.some.injEq, Prod.mk.injEq] at hr
    obtain ⟨rfl, rfl, rfl, rfl⟩ := hr
    rw [List.drop_drop]
    refine ⟨s.take (10 + messageSize ((s.drop 2).take 4)), (List.take_append_drop _ _).symm, ?_⟩
    generalize hz : messageSize ((s.drop 2).take 4) = z at *
    simp only [List.length_drop] at hs
    have e1 : ((s.take (10 + z)).drop 2).take 4 = (s.drop 2).take 4 := by
      rw [List.drop_take, List.take_take]; congr 1; omega
    have e2 : ((s.take (10 + z)).drop 6).take 4 = (s.drop 6).take 4 := by
      rw [List.drop_take, List.take_take]; congr 1; omega
    have e3 : (s.take (10 + z)).drop 10 = (s.drop 10).take z := by
      rw [List.drop_take]; congr 1; omega
    have e4 : (s.take (10 + z)).take 2 = s.take 2 := by
      rw [List.take_take]; congr 1; omega
    unfold readMessage
    rw [if_neg (by simp; omega)]
    simp only [e1, e2, e3, e4, hz]
    rw [if_neg (by simp; omega), List.take_take, Nat.min_self, List.drop_take]
    simp
  obtain ⟨m, h1, h2⟩ := hm
  exact ⟨m, h1, fun r => readMessage_append h2 r⟩

/-- what holds of a state after these moves, `as` being the messages taken so far -/
structure FcInv (env : FcEnv) (ans : AnswerRel σ) (start : σ) (arrived : List Byte)
    (as : List LlrpAction) (s : Fc σ) : Prop where
  id : s.vars.currentMessageID = 0#32
  consumed : ∃ c, arrived = c ++ s.pending ∧ ∀ rest, llrpLoop env.headers (c ++ rest) =
    (as ++ (llrpLoop env.headers rest).1, (llrpLoop env.headers rest).2)
  written : s.written = repliesTo 0#32 as
  batches : s.batches.map some <+: (reportBodies as).map env.decode
  all : s.ended ≠ some .panic → s.batches.map some = (reportBodies as).map env.decode
  why : s.ended = some .panic → (none ∈ (reportBodies as).map env.decode) ∨
    ∃ before e after results y, s.batches.flatten = before ++ e :: after ∧
      Answered ans start before results y ∧ ans y e none
  done : ∃ y, Collected ans start s.done y ∧ (s.listener = .waiting → s.factory = y) ∧
    ∀ batch todo reports, s.listener = .searching batch todo reports →
      ∃ before results, batch = before ++ todo ∧
        Answered ans y before results s.factory ∧ reports = collectReports results

theorem fcInv_start (start : σ) (flag : Option Int) : FcInv env ans start [] [] (fcStart start flag) where
  id := rfl
  consumed := ⟨[], rfl, fun _ => rfl⟩
  written := rfl
  batches := ⟨[], rfl⟩
  all _ := rfl
  why h := by cases h
  done := ⟨start, .nil _, fun _ => rfl, fun _ _ _ h => (by cases h)⟩

theorem answered_append {x y z : σ} {es es' : List ReadEvent} {rs rs' : List SearchResult}
    (h : Answered ans x es rs y) (h' : Answered ans y es' rs' z) : Answered ans x (es ++ es') (rs ++ rs') z := by
  induction h with
  | nil => exact h'
  | cons h _ ih => exact .cons h (ih h')

theorem answered_snoc {x y z : σ} {es : List ReadEvent} {rs : List SearchResult} {e : ReadEvent} {r : SearchResult}
    (h : Answered ans x es rs y) (hr : ans y e (some (r, z))) : Answered ans x (es ++ [e]) (rs ++ [r]) z :=
  answered_append h (.cons hr (.nil z))

theorem collected_snoc {x y z : σ} {l : List (List ReadEvent × List (Str × List Str))} {batch : List ReadEvent}
    {results : List SearchResult} (h : Collected ans x l y) (hr : Answered ans y batch results z) :
    Collected ans x (l ++ [(batch, collectReports results)]) z := by
  induction h with
  | nil => exact .cons hr (.nil _)
  | cons h _ ih => exact .cons h (ih hr)

theorem collected_answered {x y : σ} {l : List (List ReadEvent × List (Str × List Str))}
    (h : Collected ans x l y) : ∃ results, Answered ans x (l.map Prod.fst).flatten results y := by
  induction h with
  | nil x => exact ⟨[], .nil x⟩
  | cons h _ ih =>
    obtain ⟨rs, h'⟩ := ih
    exact ⟨_, answered_append h h'⟩

theorem collectReports_snoc (rs : List SearchResult) (r : SearchResult) : collectReports (rs ++ [r]) =
    fcCollect (collectReports rs) r := by
  unfold collectReports
  rw [List.foldl_append]
  rfl

theorem fcInv_step {start : σ} {s t : Fc σ} {l : FcLabel} {arrived : List Byte} {as : List LlrpAction}
    (hi : FcInv env ans start arrived as s) (h : FcStep env ans s l t) :
    ∃ as', FcInv env ans start (arrived ++ arrivedIn [l]) (as ++ as') t := by
  obtain ⟨c, hc1, hc2⟩ := hi.consumed
  cases h with
  | @arrive bs he =>
    refine ⟨[], ?_⟩
    rw [List.append_nil]
    exact ⟨hi.id, ⟨c, by simp [hc1, arrivedIn], hc2⟩, hi.written, hi.batches, hi.all, hi.why, hi.done⟩
  | eof he hm hr =>
    refine ⟨[], ?_⟩
    rw [List.append_nil, show arrivedIn [FcLabel.eof] = [] from rfl, List.append_nil]
    exact ⟨hi.id, ⟨c, hc1, hc2⟩, hi.written, hi.batches, fun _ => hi.all (by rw [he]; simp),
      fun h => (by cases h), hi.done⟩
  | @read h mid body rest a he hm hr ha =>
    refine ⟨[a], ?_⟩
    rw [show arrivedIn [FcLabel.read] = [] from rfl, List.append_nil]
    have hcons : ∃ c', arrived = c' ++ rest ∧ ∀ r, llrpLoop env.headers (c' ++ r) =
        (as ++ [a] ++ (llrpLoop env.headers r).1, (llrpLoop env.headers r).2) := by
      obtain ⟨m, hm, e⟩ := readMessage_split hr
      refine ⟨c ++ m, by rw [hc1, hm]; simp, fun r => ?_⟩
      rw [List.append_assoc, hc2, llrpLoop_some (e r), ha]
      simp
    have hall := hi.all (by rw [he]; simp)
    cases a with
    | setReaderConfig =>
      have hb : reportBodies (as ++ [.setReaderConfig]) = reportBodies as := by
        rw [reportBodies_append]; exact List.append_nil _
      refine ⟨hi.id, hcons, ?_, ?_, ?_, ?_, hi.done⟩
      · show s.written ++ _ = _
        rw [repliesTo_append, hi.written, hi.id]; rfl
      · rw [hb]; exact hi.batches
      · rw [hb]; exact fun _ => hall
      · rw [hb]; exact hi.why
    | keepaliveAck =>
      have hb : reportBodies (as ++ [.keepaliveAck]) = reportBodies as := by
        rw [reportBodies_append]; exact List.append_nil _
      refine ⟨hi.id, hcons, ?_, ?_, ?_, ?_, hi.done⟩
      · show s.written ++ _ = _
        rw [repliesTo_append, hi.written, hi.id]; rfl
      · rw [hb]; exact hi.batches
      · rw [hb]; exact fun _ => hall
      · rw [hb]; exact hi.why
    | logOnly =>
      have hb : reportBodies (as ++ [.logOnly]) = reportBodies as := by
        rw [reportBodies_append]; exact List.append_nil _
      refine ⟨hi.id, hcons, ?_, ?_, ?_, ?_, hi.done⟩
      · show s.written = _
        rw [repliesTo_append, hi.written]; exact (List.append_nil _).symm
      · rw [hb]; exact hi.batches
      · rw [hb]; exact fun _ => hall
      · rw [hb]; exact hi.why
    | report b =>
      have hb : reportBodies (as ++ [.report b]) = reportBodies as ++ [b] := by
        rw [reportBodies_append]; rfl
      have hw : s.written = repliesTo 0#32 (as ++ [.report b]) := by
        rw [repliesTo_append, hi.written]; exact (List.append_nil _).symm
      unfold fcAct
      dsimp only
      cases hd : env.decode b with
      | none =>
        dsimp only
        refine ⟨hi.id, hcons, hw, ?_, fun h => absurd rfl h, fun _ => Or.inl ?_, hi.done⟩
        · rw [hb, List.map_append]
          exact hi.batches.trans (List.prefix_append _ _)
        · rw [hb, List.map_append, List.mem_append]
          exact Or.inr (by simp [hd])
      | some batch =>
        dsimp only
        have hbs : (({ s with pending := rest, main := FcMain.handing batch } : Fc σ).batches).map some =
            (reportBodies (as ++ [.report b])).map env.decode := by
          rw [hb, List.map_append, ← hall]
          unfold Fc.batches Fc.underWay
          rw [hm]
          simp [hd]
        exact ⟨hi.id, hcons, hw, by rw [hbs]; exact List.prefix_rfl, fun _ => hbs, fun h => (by rw [he] at h; cases h), hi.done⟩
  | @unknown h mid body rest he hm hr ha =>
    refine ⟨[], ?_⟩
    rw [List.append_nil, show arrivedIn [FcLabel.read] = [] from rfl, List.append_nil]
    exact ⟨hi.id, ⟨c, hc1, hc2⟩, hi.written, hi.batches, fun _ => hi.all (by rw [he]; simp),
      fun h => (by cases h), hi.done⟩
  | @hand batch he hm hl =>
    refine ⟨[], ?_⟩
    rw [List.append_nil, show arrivedIn [FcLabel.hand] = [] from rfl, List.append_nil]
    have hb : ({ s with main := FcMain.reading, listener := .searching batch batch [] } : Fc σ).batches =
        s.batches := by
      unfold Fc.batches Fc.underWay
      rw [hm, hl]
      simp
    refine ⟨hi.id, ⟨c, hc1, hc2⟩, hi.written, by rw [hb]; exact hi.batches,
      by rw [hb]; exact fun _ => hi.all (by rw [he]; simp), fun h => (by rw [he] at h; cases h), ?_⟩
    obtain ⟨y, d1, d2, -⟩ := hi.done
    refine ⟨y, d1, fun h => (by cases h), ?_⟩
    intro b t r e
    cases e
    exact ⟨[], [], rfl, by rw [d2 hl]; exact .nil _, rfl⟩
  | @search batch todo e reports r factory he hl ha =>
    refine ⟨[], ?_⟩
    rw [List.append_nil, show arrivedIn [FcLabel.search (some r)] = [] from rfl, List.append_nil]
    have hb : ({ s with factory := factory, listener := FcListener.searching batch todo (fcCollect reports r) } : Fc σ).batches =
        s.batches := by
      unfold Fc.batches Fc.underWay
      rw [hl]
    refine ⟨hi.id, ⟨c, hc1, hc2⟩, hi.written, by rw [hb]; exact hi.batches,
      by rw [hb]; exact fun _ => hi.all (by rw [he]; simp), fun h => (by rw [he] at h; cases h), ?_⟩
    obtain ⟨y, d1, -, d3⟩ := hi.done
    refine ⟨y, d1, fun h => (by cases h), ?_⟩
    intro b t r' e'
    cases e'
    obtain ⟨before, results, h1, h2, h3⟩ := d3 _ _ _ hl
    refine ⟨before ++ [e], results ++ [r], by rw [h1]; simp, answered_snoc h2 ha, ?_⟩
    rw [collectReports_snoc, h3]
  | @crash batch todo e reports he hl ha =>
    refine ⟨[], ?_⟩
    rw [List.append_nil, show arrivedIn [FcLabel.search none] = [] from rfl, List.append_nil]
    refine ⟨hi.id, ⟨c, hc1, hc2⟩, hi.written, hi.batches, fun h => absurd rfl h, fun _ => Or.inr ?_, hi.done⟩
    obtain ⟨y, d1, -, d3⟩ := hi.done
    obtain ⟨before, results, h1, h2, -⟩ := d3 _ _ _ hl
    obtain ⟨rs, h3⟩ := collected_answered d1
    refine ⟨_, e, ?_, _, _, ?_, answered_append h3 h2, ha⟩
    · exact todo ++ (match s.main with
        | .handing batch => batch
        | .reading => [])
    · unfold Fc.batches Fc.underWay
      dsimp only
      rw [hl, h1]
      cases s.main <;> simp
  | @finish batch reports he hl =>
    refine ⟨[], ?_⟩
    rw [List.append_nil, show arrivedIn [FcLabel.finish] = [] from rfl, List.append_nil]
    have hb : ({ s with listener := FcListener.waiting, done := s.done ++ [(batch, reports)] } : Fc σ).batches =
        s.batches := by
      unfold Fc.batches Fc.underWay
      rw [hl]
      simp
    refine ⟨hi.id, ⟨c, hc1, hc2⟩, hi.written, by rw [hb]; exact hi.batches,
      by rw [hb]; exact fun _ => hi.all (by rw [he]; simp), fun h => (by rw [he] at h; cases h), ?_⟩
    obtain ⟨y, d1, -, d3⟩ := hi.done
    obtain ⟨before, results, h1, h2, h3⟩ := d3 _ _ _ hl
    rw [List.append_nil] at h1
    subst h1
    refine ⟨s.factory, ?_, fun _ => rfl, fun b t r e => (by cases e)⟩
    rw [h3]
    exact collected_snoc d1 h2

theorem fcInv_run {start : σ} {flag : Option Int} {ls : List FcLabel} {s : Fc σ}
    (h : FcRun env ans (fcStart start flag) ls s) : ∃ as, FcInv env ans start (arrivedIn ls) as s := by
  induction h with
  | nil => exact ⟨[], fcInv_start start flag⟩
  | snoc h hs ih =>
    obtain ⟨as, hi⟩ := ih
    obtain ⟨as', hi'⟩ := fcInv_step hi hs
    rw [arrivedIn_append]
    exact ⟨_, hi'⟩


/-- where the search stands among all events -/
theorem searching_answered {start : σ} {arrived : List Byte} {as : List LlrpAction} {s : Fc σ}
    (hi : FcInv env ans start arrived as s) {batch todo : List ReadEvent} {e : ReadEvent}
    {reports : List (Str × List Str)} (hl : s.listener = .searching batch (e :: todo) reports) :
    ∃ before after results, s.batches.flatten = before ++ e :: after ∧
      Answered ans start before results s.factory := by
  obtain ⟨y, d1, -, d3⟩ := hi.done
  obtain ⟨before, results, h1, h2, -⟩ := d3 _ _ _ hl
  obtain ⟨rs, h3⟩ := collected_answered d1
  refine ⟨(s.done.map Prod.fst).flatten ++ before, todo ++ (match s.main with
    | .handing batch => batch
    | .reading => []), _, ?_, answered_append h3 h2⟩
  unfold Fc.batches Fc.underWay
  rw [hl, h1]
  cases s.main <;> simp

/-- why the program ended by `log.Fatal` -/
theorem fatal_why {s t : Fc σ} {ls : List FcLabel} (h : FcRun env ans s ls t) (h0 : s.ended = none)
    (hf : t.ended = some .fatal) :
    .eof ∈ ls ∨ ∃ n, (llrpLoop env.headers t.pending).2 = .unknownHeader n := by
  cases h with
  | nil => rw [h0] at hf; cases hf
  | @snoc u _ ls l h hs =>
    cases hs with
    | arrive he => exact absurd (he.symm.trans hf) (by simp)
    | eof he hm hr => exact Or.inl (by simp)
    | @read h' mid body rest a he hm hr ha =>
      exfalso
      have : ∀ s' : Fc σ, s'.ended = none → (fcAct env s' a).ended ≠ some .fatal := by
        intro s' hs'
        unfold fcAct
        split
        · simp [hs']
        · simp [hs']
        · simp [hs']
        · split
          · simp
          · simp [hs']
      exact this { u with pending := rest } he hf
    | unknown he hm hr ha =>
      right
      exact ⟨_, by rw [llrpLoop_some hr, ha]⟩
    | hand he hm hl => exact absurd (he.symm.trans hf) (by simp)
    | search he hl ha => exact absurd (he.symm.trans hf) (by simp)
    | crash he hl ha => cases hf
    | finish he hl => exact absurd (he.symm.trans hf) (by simp)

/-- how many moves a message costs -/
def actionWork (env : FcEnv) : LlrpAction → Nat
  | .report body => 3 + ((env.decode body).getD []).length
  | _ => 1

/-- how many moves there are left -/
def fcWork (env : FcEnv) (s : Fc σ) : Nat :=
  if s.ended = none then
    1 + ((llrpLoop env.headers s.pending).1.map (actionWork env)).sum +
    (match s.main with
      | .handing batch => 2 + batch.length
      | .reading => 0) +
    (match s.listener with
      | .searching _ todo _ => 1 + todo.length
      | .waiting => 0)
  else 0

theorem fcWork_step {s t : Fc σ} {l : FcLabel} (h : FcStep env ans s l t) (ho : l.Own) :
    fcWork env t < fcWork env s := by
  cases h with
  | arrive he => exact ho.elim
  | eof he hm hr => exact ho.elim
  | @read h' mid body rest a he hm hr ha =>
    have e : (llrpLoop env.headers s.pending).1 = a :: (llrpLoop env.headers rest).1 := by
      rw [llrpLoop_some hr, ha]
    have hw : fcWork env s = 1 + (actionWork env a + ((llrpLoop env.headers rest).1.map (actionWork env)).sum) +
        0 + (match s.listener with
          | .searching _ todo _ => 1 + todo.length
          | .waiting => 0) := by
      unfold fcWork
      rw [if_pos he, e, hm, List.map_cons, List.sum_cons]
    have key : ∀ w, fcWork env { s with pending := rest, written := w } = 1 +
        ((llrpLoop env.headers rest).1.map (actionWork env)).sum + 0 + (match s.listener with
          | .searching _ todo _ => 1 + todo.length
          | .waiting => 0) := by
      intro w
      unfold fcWork
      rw [if_pos he]
      dsimp only
      rw [hm]
    cases a with
    | setReaderConfig => unfold fcAct; dsimp only; rw [key, hw]; simp only [actionWork]; omega
    | keepaliveAck => unfold fcAct; dsimp only; rw [key, hw]; simp only [actionWork]; omega
    | logOnly => unfold fcAct; dsimp only; rw [key, hw]; simp only [actionWork]; omega
    | report b =>
      unfold fcAct
      dsimp only
      cases hd : env.decode b with
      | none => dsimp only; rw [hw]; unfold fcWork; rw [if_neg (by simp)]; omega
      | some batch =>
        dsimp only
        rw [hw]
        unfold fcWork
        rw [if_pos he]
        simp only [actionWork, hd, Option.getD_some]
        omega
  | unknown he hm hr ha =>
    unfold fcWork; rw [if_pos he, if_neg (by simp)]; omega
  | hand he hm hl =>
    unfold fcWork
    rw [if_pos he, if_pos he]
    dsimp only
    rw [hm, hl]
    dsimp only
    omega
  | search he hl ha =>
    unfold fcWork
    rw [if_pos he, if_pos he]
    dsimp only
    rw [hl]
    simp only [List.length_cons]
    omega
  | crash he hl ha => unfold fcWork; rw [if_pos he, if_neg (by simp)]; omega
  | finish he hl =>
    unfold fcWork
    rw [if_pos he, if_pos he]
    dsimp only
    rw [hl]
    simp only [List.length_nil]
    omega

theorem fcWork_run {s t : Fc σ} {ls : List FcLabel} (h : FcRun env ans s ls t) (ho : ∀ l ∈ ls, l.Own) :
    ls.length + fcWork env t ≤ fcWork env s := by
  induction h with
  | nil => simp
  | @snoc t u ls l h hs ih =>
    have h1 := ih fun l hl => ho l (List.mem_append_left _ hl)
    have h2 := fcWork_step hs (ho l (by simp))
    simp only [List.length_append, List.length_cons, List.length_nil]
    omega

/-- at rest nothing is under way -/
theorem rest_idle {s : Fc σ} (hr : s.AtRest env ans) (he : s.ended = none)
    (ht : ∀ batch e todo reports, s.listener = .searching batch (e :: todo) reports → ∃ r, ans s.factory e r) :
    s.main = .reading ∧ s.listener = .waiting ∧ readMessage s.pending = none := by
  have hl : s.listener = .waiting := by
    cases hl : s.listener with
    | waiting => rfl
    | searching batch todo reports =>
      exfalso
      cases todo with
      | nil => exact hr .finish _ trivial (.finish he hl)
      | cons e todo =>
        obtain ⟨r, ha⟩ := ht _ _ _ _ hl
        cases r with
        | none => exact hr (.search none) _ trivial (.crash he hl ha)
        | some r => exact hr (.search (some r.1)) _ trivial (.search he hl ha)
  have hm : s.main = .reading := by
    cases hm : s.main with
    | reading => rfl
    | handing batch => exact absurd (FcStep.hand he hm hl) (hr _ _ trivial)
  refine ⟨hm, hl, ?_⟩
  cases e : readMessage s.pending with
  | none => rfl
  | some q =>
    obtain ⟨h, mid, body, rest⟩ := q
    exfalso
    cases ha : llrpSwitch env.headers h body with
    | none => exact hr .read _ trivial (.unknown he hm e ha)
    | some a => exact hr .read _ trivial (.read he hm e ha)

end Gosstrak
