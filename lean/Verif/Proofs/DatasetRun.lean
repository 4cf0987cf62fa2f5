import Verif.Spec.DatasetRun

/-! Runs of the data set tool. -/
namespace Gosstrak

/-! ### files -/

theorem fileGet_set (fs : List (List Str × List Str)) (p : List Str) (c : List Str) (q : List Str) :
    fileGet (fileSet fs p c) q = if q = p then some c else fileGet fs q := by
  unfold fileGet fileSet
  rw [List.find?_cons]
  by_cases h : q = p
  · subst h; simp
  · have h' : ¬ p = q := fun e => h e.symm
    simp only [h', decide_false, h, if_false]
    congr 1
    rw [List.find?_filter]
    congr 1
    funext e
    by_cases he : e.1 = q
    · subst he; simp [h]
    · simp [he]

theorem fileSet_twice (fs : List (List Str × List Str)) (p : List Str) (c d : List Str) :
    fileSet (fileSet fs p c) p d = fileSet fs p d := by
  unfold fileSet
  simp [List.filter_filter]

/-! ### blank lines -/

theorem nonBlank_append (a b : List Str) : nonBlank (a ++ b) = nonBlank a ++ nonBlank b := by simp [nonBlank]

theorem nonBlank_nil : nonBlank [] = [] := rfl

/-- the lines written or received by the filter writer -/
def GenState.out (s : GenState) : List Str := s.csv ++ nonBlank s.held.toList

theorem out_writer {s : GenState} {l : Str} (h : s.held = some l) :
    (if l.length ≠ 0 then s.csv ++ [l] else s.csv) ++ nonBlank (none : Option Str).toList = s.out := by
  unfold GenState.out
  rw [h]
  cases l with
  | nil => simp [nonBlank]
  | cons c l => simp [nonBlank]

/-! ### workers -/

/-- the job of a worker -/
def Phase.job : Phase → List Job
  | .idle => []
  | .stat j => [j]
  | .create j => [j]
  | .send j _ => [j]
  | .write j => [j]
  | .done => []

/-- the lines of the job of a worker that have been sent -/
def Phase.sent : Phase → List Str
  | .send j rest => nonBlank (j.filters.take (j.filters.length - rest.length))
  | .write j => nonBlank j.filters
  | _ => []

theorem sent_send {j : Job} {pre rest : List Str} (h : j.filters = pre ++ rest) : (Phase.send j rest).sent = nonBlank pre := by
  show nonBlank (j.filters.take (j.filters.length - rest.length)) = nonBlank pre
  rw [h]
  simp

theorem split_worker {ws : List Phase} {i : Nat} {p : Phase} (h : ws[i]? = some p) :
    ∃ A B, ws = A ++ p :: B ∧ ∀ p', ws.set i p' = A ++ p' :: B := by
  obtain ⟨hi, rfl⟩ := List.getElem?_eq_some_iff.mp h
  exact ⟨ws.take i, ws.drop (i + 1), by simp, fun p' => List.set_eq_take_append_cons_drop.trans (by simp [hi])⟩

/-! ### steps -/

/-- what a step does -/
inductive GenStep (cap : Nat) : GenState → GenState → Prop
  | take {s j q A B} : s.queue = j :: q → s.workers = A ++ .idle :: B →
      GenStep cap s { s with queue := q, workers := A ++ .stat j :: B }
  | leave {s A B} : s.queue = [] → s.closed = true → s.workers = A ++ .idle :: B →
      GenStep cap s { s with workers := A ++ .done :: B }
  | fatal {s j A B} : s.workers = A ++ .stat j :: B → (fileGet s.files j.file).isSome → j.fatal = true →
      GenStep cap s { s with ended := some false }
  | skip {s j A B} : s.workers = A ++ .stat j :: B → (fileGet s.files j.file).isSome → j.fatal = false →
      GenStep cap s { s with workers := A ++ .idle :: B }
  | absent {s j A B} : s.workers = A ++ .stat j :: B → fileGet s.files j.file = none →
      GenStep cap s { s with workers := A ++ .create j :: B }
  | create {s j A B} : s.workers = A ++ .create j :: B →
      GenStep cap s { s with files := fileSet s.files j.file [], workers := A ++ .send j j.filters :: B }
  | sent {s j A B} : s.workers = A ++ .send j [] :: B → GenStep cap s { s with workers := A ++ .write j :: B }
  | send {s j l rest A B} : s.workers = A ++ .send j (l :: rest) :: B → s.held = none →
      GenStep cap s { s with held := some l, workers := A ++ .send j rest :: B }
  | write {s j A B} : s.workers = A ++ .write j :: B →
      GenStep cap s { s with files := fileSet s.files j.file j.content, workers := A ++ .idle :: B }
  | put {s j rest} : s.pending = j :: rest → s.queue.length < cap →
      GenStep cap s { s with pending := rest, queue := s.queue ++ [j] }
  | close {s} : s.pending = [] → s.closed = false → GenStep cap s { s with closed := true }
  | finish {s} : s.pending = [] → s.closed = true → (∀ p ∈ s.workers, p = .done) → GenStep cap s { s with ended := some true }
  | line {s l} : s.held = some l →
      GenStep cap s { s with held := none, csv := if l.length ≠ 0 then s.csv ++ [l] else s.csv }

theorem step_cases {cap : Nat} {s s' : GenState} {l : GenLabel} (h : s.step cap l = some s') :
    s.ended = none ∧ GenStep cap s s' := by
  unfold GenState.step at h
  split at h
  · cases h
  rename_i he
  refine ⟨by simpa using he, ?_⟩
  cases l with
  | main =>
    dsimp only at h
    unfold GenState.mainStep at h
    split at h
    · rename_i j rest hp
      split at h
      · rename_i hc
        cases h
        exact .put hp hc
      · cases h
    · rename_i hp
      split at h
      · rename_i hc
        cases h
        exact .close hp (by simpa using hc)
      · rename_i hc
        split at h
        · rename_i hd
          cases h
          refine .finish hp (by simpa using hc) ?_
          simpa using hd
        · cases h
  | worker i =>
    dsimp only at h
    split at h
    · cases h
    rename_i p hp
    obtain ⟨A, B, hw, hs⟩ := split_worker hp
    cases p with
    | idle =>
      simp only [GenState.workerStep] at h
      split at h
      · rename_i j q hq
        cases h
        simp only [GenState.setWorker, hs]
        exact .take hq hw
      · rename_i hq
        split at h
        · rename_i hc
          cases h
          simp only [GenState.setWorker, hs]
          exact .leave hq hc hw
        · cases h
    | stat j =>
      simp only [GenState.workerStep] at h
      split at h
      · rename_i hf
        split at h
        · rename_i hj
          cases h
          exact .fatal hw hf hj
        · rename_i hj
          cases h
          simp only [GenState.setWorker, hs]
          exact .skip hw hf (by simpa using hj)
      · rename_i hf
        cases h
        simp only [GenState.setWorker, hs]
        exact .absent hw (by simpa using hf)
    | create j =>
      simp only [GenState.workerStep] at h
      cases h
      simp only [GenState.setWorker, hs]
      exact .create hw
    | send j rest =>
      cases rest with
      | nil =>
        simp only [GenState.workerStep] at h
        cases h
        simp only [GenState.setWorker, hs]
        exact .sent hw
      | cons l rest =>
        simp only [GenState.workerStep] at h
        split at h
        · rename_i hh
          cases h
          simp only [GenState.setWorker, hs]
          exact .send hw hh
        · cases h
    | write j =>
      simp only [GenState.workerStep] at h
      cases h
      simp only [GenState.setWorker, hs]
      exact .write hw
    | done => simp [GenState.workerStep] at h
  | writer =>
    dsimp only at h
    unfold GenState.writerStep at h
    split at h
    · cases h
    · rename_i l hl
      cases h
      exact .line hl

theorem gen_run_induct {cap : Nat} {P : GenState → Prop} (hstep : ∀ s s', P s → s.ended = none → GenStep cap s s' → P s') :
    ∀ (ls : List GenLabel) (s s' : GenState), P s → s.run cap ls = some s' → P s'
  | [], s, s', h, e => by cases e; exact h
  | l :: ls, s, s', h, e => by
    unfold GenState.run at e
    rw [List.foldlM_cons] at e
    cases h1 : s.step cap l with
    | none => rw [h1] at e; cases e
    | some s1 =>
      rw [h1] at e
      obtain ⟨a, b⟩ := step_cases h1
      exact gen_run_induct hstep ls s1 s' (hstep s s1 h a b) e

/-! ### the jobs are done -/

/-- the invariant; `fin` are the jobs that are done -/
structure GInv (files0 : List (List Str × List Str)) (J fin : List Job) (n : Nat) (s : GenState) : Prop where
  jobs : (fin ++ s.workers.flatMap Phase.job ++ s.queue ++ s.pending).Perm J
  files : ∀ j ∈ fin, fileGet s.files j.file = some j.content
  lines : ∀ j ∈ fin, (nonBlank j.filters).Sublist s.out
  before : ∀ j, (.stat j ∈ s.workers ∨ .create j ∈ s.workers ∨ j ∈ s.queue ∨ j ∈ s.pending) → fileGet s.files j.file = none
  sending : ∀ j rest, .send j rest ∈ s.workers → ∃ pre, j.filters = pre ++ rest ∧ (nonBlank pre).Sublist s.out
  writing : ∀ j, .write j ∈ s.workers → (nonBlank j.filters).Sublist s.out
  others : ∀ p, p ∉ J.map Job.file → fileGet s.files p = fileGet files0 p
  out : s.out.Perm (fin.flatMap (fun j => nonBlank j.filters) ++ s.workers.flatMap Phase.sent)
  closed : s.closed = true → s.pending = []
  done : .done ∈ s.workers → s.closed = true ∧ s.queue = []
  ended : s.ended ≠ some false ∧ (s.ended = some true → s.closed = true ∧ ∀ p ∈ s.workers, p = .done)
  count : s.workers.length = n

theorem GInv.start {files : List (List Str × List Str)} {J : List Job} (n : Nat) (h0 : ∀ j ∈ J, fileGet files j.file = none) :
    GInv files J [] n (genStart files n J) := by
  have hw : ∀ p, p ∈ List.replicate n Phase.idle → p = .idle := fun p h => List.eq_of_mem_replicate h
  have e1 : (List.replicate n Phase.idle).flatMap Phase.job = [] := by
    simp only [List.flatMap_eq_nil_iff]; intro p hp; rw [hw p hp]; rfl
  have e2 : (List.replicate n Phase.idle).flatMap Phase.sent = [] := by
    simp only [List.flatMap_eq_nil_iff]; intro p hp; rw [hw p hp]; rfl
  constructor
  · simp [genStart, e1]
  · simp
  · simp
  · intro j h
    rcases h with h | h | h | h
    · exact absurd (hw _ h) (by simp)
    · exact absurd (hw _ h) (by simp)
    · exact absurd h (by simp [genStart])
    · exact h0 j h
  · intro j rest h; exact absurd (hw _ h) (by simp)
  · intro j h; exact absurd (hw _ h) (by simp)
  · intro p _; rfl
  · simp [genStart, GenState.out, e2, nonBlank]
  · intro h; exact absurd h (by simp [genStart])
  · intro h; exact absurd (hw _ h) (by simp)
  · simp [genStart]
  · simp [genStart]

/-- other jobs have other files -/
theorem other_file {J R : List Job} {j : Job} (hJ : (J.map Job.file).Nodup) (h : (j :: R).Perm J) :
    ∀ j' ∈ R, j'.file ≠ j.file := by
  have := ((h.map Job.file).nodup_iff).mpr hJ
  simp only [List.map_cons, List.nodup_cons, List.mem_map, not_exists, not_and] at this
  exact fun j' hj e => this.1 j' hj e

theorem GInv.step {files0 : List (List Str × List Str)} {J fin : List Job} {n cap : Nat} {s s' : GenState}
    (hJ : (J.map Job.file).Nodup) (h : GInv files0 J fin n s) (hn : s.ended = none) (hs : GenStep cap s s') :
    ∃ fin', GInv files0 J fin' n s' := by
  have cnt := List.perm_iff_count.mp h.jobs
  have octs := List.perm_iff_count.mp h.out
  cases hs with
  | @take j q A B hq hw =>
    refine ⟨fin, ?_⟩
    constructor
    · rw [List.perm_iff_count]
      intro a
      rw [← cnt a, hw, hq]
      simp only [List.flatMap_append, List.flatMap_cons, List.count_append, List.count_cons, Phase.job, List.count_nil]
      omega
    · exact h.files
    · exact h.lines
    · intro j' hj
      apply h.before
      rw [hw, hq]
      simp only [List.mem_append, List.mem_cons] at hj ⊢
      rcases hj with (hj | hj | hj) | (hj | hj | hj) | hj | hj
      · exact .inl (.inl hj)
      · cases hj; exact .inr (.inr (.inl (.inl rfl)))
      · exact .inl (.inr (.inr hj))
      · exact .inr (.inl (.inl hj))
      · cases hj
      · exact .inr (.inl (.inr (.inr hj)))
      · exact .inr (.inr (.inl (.inr hj)))
      · exact .inr (.inr (.inr hj))
    · intro j' rest hj
      apply h.sending
      rw [hw]
      simp only [List.mem_append, List.mem_cons, reduceCtorEq, false_or] at hj ⊢
      exact hj
    · intro j' hj
      apply h.writing
      rw [hw]
      simp only [List.mem_append, List.mem_cons, reduceCtorEq, false_or] at hj ⊢
      exact hj
    · exact h.others
    · have := h.out
      rw [hw] at this
      simpa [GenState.out, Phase.sent] using this
    · exact h.closed
    · intro hd
      have := h.done (by rw [hw]; simpa using hd)
      rw [hq] at this
      exact absurd this.2 (by simp)
    · exact ⟨h.ended.1, fun e => by rw [hn] at e; cases e⟩
    · have := h.count; rw [hw] at this; simpa using this
  | @leave A B hq hc hw =>
    refine ⟨fin, ?_⟩
    constructor
    · have := h.jobs; rw [hw] at this; simpa [Phase.job] using this
    · exact h.files
    · exact h.lines
    · intro j' hj
      apply h.before
      rw [hw]
      simpa using hj
    · intro j' rest hj
      apply h.sending
      rw [hw]
      simpa using hj
    · intro j' hj
      apply h.writing
      rw [hw]
      simpa using hj
    · exact h.others
    · have := h.out; rw [hw] at this; simpa [GenState.out, Phase.sent] using this
    · exact h.closed
    · intro _; exact ⟨hc, hq⟩
    · exact ⟨h.ended.1, fun e => by rw [hn] at e; cases e⟩
    · have := h.count; rw [hw] at this; simpa using this
  | @fatal j A B hw hf _ =>
    have := h.before j (.inl (by rw [hw]; simp))
    rw [this] at hf; cases hf
  | @skip j A B hw hf _ =>
    have := h.before j (.inl (by rw [hw]; simp))
    rw [this] at hf; cases hf
  | @absent j A B hw hf =>
    refine ⟨fin, ?_⟩
    constructor
    · have := h.jobs; rw [hw] at this; simpa [Phase.job] using this
    · exact h.files
    · exact h.lines
    · intro j' hj
      simp only [List.mem_append, List.mem_cons, Phase.create.injEq] at hj
      by_cases e : j' = j
      · rw [e]; exact hf
      · apply h.before
        rw [hw]
        simp only [List.mem_append, List.mem_cons, Phase.stat.injEq, e, false_or, reduceCtorEq] at hj ⊢
        exact hj
    · intro j' rest hj
      apply h.sending
      rw [hw]
      simpa using hj
    · intro j' hj
      apply h.writing
      rw [hw]
      simpa using hj
    · exact h.others
    · have := h.out; rw [hw] at this; simpa [GenState.out, Phase.sent] using this
    · exact h.closed
    · intro hd; exact h.done (by rw [hw]; simpa using hd)
    · exact ⟨h.ended.1, fun e => by rw [hn] at e; cases e⟩
    · have := h.count; rw [hw] at this; simpa using this
  | @create j A B hw =>
    have hperm : (j :: (fin ++ (A ++ B).flatMap Phase.job ++ s.queue ++ s.pending)).Perm J := by
      rw [List.perm_iff_count]
      intro a
      rw [← cnt a, hw]
      simp only [List.flatMap_append, List.flatMap_cons, List.count_append, List.count_cons, Phase.job, List.count_nil]
      omega
    have hoth := other_file hJ hperm
    have hmem : j ∈ J := hperm.mem_iff.mp (by simp)
    have key : ∀ j', j' ∈ fin ++ (A ++ B).flatMap Phase.job ++ s.queue ++ s.pending →
        fileGet (fileSet s.files j.file []) j'.file = fileGet s.files j'.file := by
      intro j' hj
      rw [fileGet_set, if_neg (hoth j' hj)]
    refine ⟨fin, ?_⟩
    constructor
    · have := h.jobs; rw [hw] at this; simpa [Phase.job] using this
    · intro j' hj
      show fileGet (fileSet s.files j.file []) j'.file = _
      rw [key j' (by simp [hj])]
      exact h.files j' hj
    · exact h.lines
    · intro j' hj
      show fileGet (fileSet s.files j.file []) j'.file = _
      have hw' : (.stat j' ∈ A ++ B ∨ .create j' ∈ A ++ B ∨ j' ∈ s.queue ∨ j' ∈ s.pending) := by
        simpa using hj
      rw [key j' ?_]
      · apply h.before
        rw [hw]
        rcases hw' with e | e | e | e
        · left; simp only [List.mem_append, List.mem_cons] at e ⊢; rcases e with e | e <;> simp [e]
        · right; left; simp only [List.mem_append, List.mem_cons] at e ⊢; rcases e with e | e <;> simp [e]
        · exact .inr (.inr (.inl e))
        · exact .inr (.inr (.inr e))
      · simp only [List.mem_append, List.mem_flatMap]
        rcases hw' with e | e | e | e
        · left; left; right; exact ⟨_, by simpa using e, by simp [Phase.job]⟩
        · left; left; right; exact ⟨_, by simpa using e, by simp [Phase.job]⟩
        · exact .inl (.inr e)
        · exact .inr e
    · intro j' rest hj
      have hj' : .send j' rest ∈ A ++ B ∨ (j' = j ∧ rest = j.filters) := by
        simp only [List.mem_append, List.mem_cons, Phase.send.injEq] at hj ⊢
        rcases hj with e | e | e
        · exact .inl (.inl e)
        · exact .inr e
        · exact .inl (.inr e)
      rcases hj' with e | ⟨rfl, rfl⟩
      · apply h.sending
        rw [hw]
        simp only [List.mem_append, List.mem_cons] at e ⊢
        rcases e with e | e <;> simp [e]
      · exact ⟨[], rfl, by simp [nonBlank]⟩
    · intro j' hj
      apply h.writing
      rw [hw]
      simpa using hj
    · intro p hp
      show fileGet (fileSet s.files j.file []) p = _
      rw [fileGet_set, if_neg, h.others p hp]
      rintro rfl
      exact hp (List.mem_map_of_mem hmem)
    · have := h.out
      rw [hw] at this
      simpa [GenState.out, Phase.sent, nonBlank] using this
    · exact h.closed
    · intro hd; exact h.done (by rw [hw]; simpa using hd)
    · exact ⟨h.ended.1, fun e => by rw [hn] at e; cases e⟩
    · have := h.count; rw [hw] at this; simpa using this
  | @sent j A B hw =>
    obtain ⟨pre, hpre, hsub⟩ := h.sending j [] (by rw [hw]; simp)
    rw [List.append_nil] at hpre
    refine ⟨fin, ?_⟩
    constructor
    · have := h.jobs; rw [hw] at this; simpa [Phase.job] using this
    · exact h.files
    · exact h.lines
    · intro j' hj
      apply h.before
      rw [hw]
      simpa using hj
    · intro j' rest hj
      apply h.sending
      rw [hw]
      simp only [List.mem_append, List.mem_cons, reduceCtorEq, false_or] at hj
      simp only [List.mem_append, List.mem_cons]
      rcases hj with e | e <;> simp [e]
    · intro j' hj
      simp only [List.mem_append, List.mem_cons, Phase.write.injEq] at hj
      rcases hj with e | rfl | e
      · exact h.writing j' (by rw [hw]; simp [e])
      · rw [hpre]; exact hsub
      · exact h.writing j' (by rw [hw]; simp [e])
    · exact h.others
    · have := h.out
      rw [hw] at this
      simpa [GenState.out, Phase.sent] using this
    · exact h.closed
    · intro hd; exact h.done (by rw [hw]; simpa using hd)
    · exact ⟨h.ended.1, fun e => by rw [hn] at e; cases e⟩
    · have := h.count; rw [hw] at this; simpa using this
  | @send j l rest A B hw hh =>
    obtain ⟨pre, hpre, hsub⟩ := h.sending j (l :: rest) (by rw [hw]; simp)
    have hout : ({ s with held := some l, workers := A ++ .send j rest :: B } : GenState).out = s.out ++ nonBlank [l] := by
      simp [GenState.out, hh, nonBlank]
    have grow : ∀ {x : List Str}, x.Sublist s.out → x.Sublist (s.out ++ nonBlank [l]) :=
      fun hx => hx.trans (List.sublist_append_left _ _)
    refine ⟨fin, ?_⟩
    constructor
    · have := h.jobs; rw [hw] at this; simpa [Phase.job] using this
    · exact h.files
    · intro j' hj; rw [hout]; exact grow (h.lines j' hj)
    · intro j' hj
      apply h.before
      rw [hw]
      simpa using hj
    · intro j' rest' hj
      rw [hout]
      simp only [List.mem_append, List.mem_cons, Phase.send.injEq] at hj
      have old : .send j' rest' ∈ s.workers → ∃ pre, j'.filters = pre ++ rest' ∧ (nonBlank pre).Sublist (s.out ++ nonBlank [l]) := by
        intro e
        obtain ⟨pre, a, b⟩ := h.sending j' rest' e
        exact ⟨pre, a, grow b⟩
      rcases hj with e | ⟨rfl, rfl⟩ | e
      · exact old (by rw [hw]; simp [e])
      · exact ⟨pre ++ [l], by simp [hpre], by rw [nonBlank_append]; exact hsub.append (List.Sublist.refl _)⟩
      · exact old (by rw [hw]; simp [e])
    · intro j' hj
      rw [hout]
      apply grow
      apply h.writing
      rw [hw]
      simpa using hj
    · exact h.others
    · rw [hout, List.perm_iff_count]
      intro a
      have := octs a
      rw [hw] at this
      simp only [List.flatMap_append, List.flatMap_cons, List.count_append, sent_send hpre] at this
      have e2 : j.filters = (pre ++ [l]) ++ rest := by simp [hpre]
      simp only [List.flatMap_append, List.flatMap_cons, List.count_append, sent_send e2, nonBlank_append]
      omega
    · exact h.closed
    · intro hd; exact h.done (by rw [hw]; simpa using hd)
    · exact ⟨h.ended.1, fun e => by rw [hn] at e; cases e⟩
    · have := h.count; rw [hw] at this; simpa using this
  | @write j A B hw =>
    have hperm : (j :: (fin ++ (A ++ B).flatMap Phase.job ++ s.queue ++ s.pending)).Perm J := by
      rw [List.perm_iff_count]
      intro a
      rw [← cnt a, hw]
      simp only [List.flatMap_append, List.flatMap_cons, List.count_append, List.count_cons, Phase.job, List.count_nil]
      omega
    have hoth := other_file hJ hperm
    have hmem : j ∈ J := hperm.mem_iff.mp (by simp)
    have key : ∀ j', j' ∈ fin ++ (A ++ B).flatMap Phase.job ++ s.queue ++ s.pending →
        fileGet (fileSet s.files j.file j.content) j'.file = fileGet s.files j'.file := by
      intro j' hj
      rw [fileGet_set, if_neg (hoth j' hj)]
    refine ⟨j :: fin, ?_⟩
    constructor
    · rw [List.perm_iff_count]
      intro a
      rw [← cnt a, hw]
      simp only [List.flatMap_append, List.flatMap_cons, List.count_append, List.count_cons, Phase.job, List.count_nil]
      omega
    · intro j' hj
      show fileGet (fileSet s.files j.file j.content) j'.file = _
      rcases List.mem_cons.mp hj with rfl | hj
      · rw [fileGet_set, if_pos rfl]
      · rw [key j' (by simp [hj])]
        exact h.files j' hj
    · intro j' hj
      rcases List.mem_cons.mp hj with rfl | hj
      · exact h.writing _ (by rw [hw]; simp)
      · exact h.lines j' hj
    · intro j' hj
      show fileGet (fileSet s.files j.file j.content) j'.file = _
      have hw' : (.stat j' ∈ A ++ B ∨ .create j' ∈ A ++ B ∨ j' ∈ s.queue ∨ j' ∈ s.pending) := by
        simpa using hj
      rw [key j' ?_]
      · apply h.before
        rw [hw]
        rcases hw' with e | e | e | e
        · left; simp only [List.mem_append, List.mem_cons] at e ⊢; rcases e with e | e <;> simp [e]
        · right; left; simp only [List.mem_append, List.mem_cons] at e ⊢; rcases e with e | e <;> simp [e]
        · exact .inr (.inr (.inl e))
        · exact .inr (.inr (.inr e))
      · simp only [List.mem_append, List.mem_flatMap]
        rcases hw' with e | e | e | e
        · left; left; right; exact ⟨_, by simpa using e, by simp [Phase.job]⟩
        · left; left; right; exact ⟨_, by simpa using e, by simp [Phase.job]⟩
        · exact .inl (.inr e)
        · exact .inr e
    · intro j' rest hj
      apply h.sending
      rw [hw]
      simpa using hj
    · intro j' hj
      apply h.writing
      rw [hw]
      simp only [List.mem_append, List.mem_cons, reduceCtorEq, false_or] at hj
      simp only [List.mem_append, List.mem_cons]
      rcases hj with e | e <;> simp [e]
    · intro p hp
      show fileGet (fileSet s.files j.file j.content) p = _
      rw [fileGet_set, if_neg, h.others p hp]
      rintro rfl
      exact hp (List.mem_map_of_mem hmem)
    · rw [List.perm_iff_count]
      intro a
      have := octs a
      rw [hw] at this
      simp only [List.flatMap_append, List.flatMap_cons, List.count_append, Phase.sent, List.count_nil, GenState.out] at this ⊢
      omega
    · exact h.closed
    · intro hd; exact h.done (by rw [hw]; simpa using hd)
    · exact ⟨h.ended.1, fun e => by rw [hn] at e; cases e⟩
    · have := h.count; rw [hw] at this; simpa using this
  | @put j rest hp hc =>
    refine ⟨fin, ?_⟩
    constructor
    · have := h.jobs; rw [hp] at this; simpa using this
    · exact h.files
    · exact h.lines
    · intro j' hj
      apply h.before
      rw [hp]
      simp only [List.mem_append, List.mem_cons, List.not_mem_nil, or_false] at hj ⊢
      rcases hj with e | e | (e | e) | e
      · exact .inl e
      · exact .inr (.inl e)
      · exact .inr (.inr (.inl e))
      · exact .inr (.inr (.inr (.inl e)))
      · exact .inr (.inr (.inr (.inr e)))
    · exact h.sending
    · exact h.writing
    · exact h.others
    · exact h.out
    · intro e
      have := h.closed e
      rw [hp] at this; cases this
    · intro hd
      have := h.closed (h.done hd).1
      rw [hp] at this; cases this
    · exact ⟨h.ended.1, fun e => by rw [hn] at e; cases e⟩
    · exact h.count
  | close hp hc =>
    refine ⟨fin, h.jobs, h.files, h.lines, h.before, h.sending, h.writing, h.others, h.out, fun _ => hp, ?_,
      ⟨h.ended.1, fun e => by rw [hn] at e; cases e⟩, h.count⟩
    intro hd
    exact ⟨rfl, (h.done hd).2⟩
  | finish hp hc hd =>
    exact ⟨fin, h.jobs, h.files, h.lines, h.before, h.sending, h.writing, h.others, h.out, h.closed, h.done,
      ⟨by simp, fun _ => ⟨hc, hd⟩⟩, h.count⟩
  | @line l hl =>
    have hout : ({ s with held := none, csv := if l.length ≠ 0 then s.csv ++ [l] else s.csv } : GenState).out = s.out :=
      out_writer hl
    refine ⟨fin, ?_⟩
    constructor
    · exact h.jobs
    · exact h.files
    · rw [hout]; exact h.lines
    · exact h.before
    · rw [hout]; exact h.sending
    · rw [hout]; exact h.writing
    · exact h.others
    · rw [hout]; exact h.out
    · exact h.closed
    · exact h.done
    · exact ⟨h.ended.1, fun e => by rw [hn] at e; cases e⟩
    · exact h.count

/-! ### every run is finite -/

/-- the steps a worker can still take on its own -/
def Phase.weight : Phase → Nat
  | .idle => 1
  | .stat j => 2 * j.filters.length + 5
  | .create j => 2 * j.filters.length + 4
  | .send _ rest => 2 * rest.length + 3
  | .write _ => 2
  | .done => 0

/-- what is left to do -/
def GenState.weight (s : GenState) : Nat :=
  (s.pending.map fun j => 2 * j.filters.length + 6).sum + (s.queue.map fun j => 2 * j.filters.length + 5).sum +
    (s.workers.map Phase.weight).sum + (if s.held.isSome then 1 else 0) + (if s.closed then 0 else 1) +
    (if s.ended.isSome then 0 else 1)

theorem weight_step {cap : Nat} {s s' : GenState} (hn : s.ended = none) (h : GenStep cap s s') : s'.weight < s.weight := by
  cases h with
  | take hq hw =>
    simp only [GenState.weight, hq, hw, List.map_append, List.map_cons, List.sum_append, List.sum_cons, Phase.weight]
    omega
  | leave hq hc hw =>
    simp only [GenState.weight, hw, List.map_append, List.map_cons, List.sum_append, List.sum_cons, Phase.weight]
    omega
  | fatal hw hf hj => simp [GenState.weight, hn]
  | skip hw hf hj =>
    simp only [GenState.weight, hw, List.map_append, List.map_cons, List.sum_append, List.sum_cons, Phase.weight]
    omega
  | absent hw hf =>
    simp only [GenState.weight, hw, List.map_append, List.map_cons, List.sum_append, List.sum_cons, Phase.weight]
    omega
  | create hw =>
    simp only [GenState.weight, hw, List.map_append, List.map_cons, List.sum_append, List.sum_cons, Phase.weight]
    omega
  | sent hw =>
    simp only [GenState.weight, hw, List.map_append, List.map_cons, List.sum_append, List.sum_cons, Phase.weight, List.length_nil]
    omega
  | send hw hh =>
    simp only [GenState.weight, hw, hh, List.map_append, List.map_cons, List.sum_append, List.sum_cons, Phase.weight,
      List.length_cons, Option.isSome_none, Option.isSome_some, if_true, Bool.false_eq_true, if_false]
    omega
  | write hw =>
    simp only [GenState.weight, hw, List.map_append, List.map_cons, List.sum_append, List.sum_cons, Phase.weight]
    omega
  | put hp hc =>
    simp only [GenState.weight, hp, List.map_append, List.map_cons, List.map_nil, List.sum_append, List.sum_cons, List.sum_nil]
    omega
  | close hp hc => simp [GenState.weight, hc]
  | finish hp hc hd => simp [GenState.weight, hn]
  | line hl => simp [GenState.weight, hl]

theorem weight_run {cap : Nat} : ∀ (ls : List GenLabel) (s s' : GenState), s.run cap ls = some s' →
    ls.length + s'.weight ≤ s.weight
  | [], s, s', e => by cases e; simp
  | l :: ls, s, s', e => by
    unfold GenState.run at e
    rw [List.foldlM_cons] at e
    cases h1 : s.step cap l with
    | none => rw [h1] at e; cases e
    | some s1 =>
      rw [h1] at e
      obtain ⟨a, b⟩ := step_cases h1
      have := weight_step a b
      have := weight_run ls s1 s' e
      simp only [List.length_cons]
      omega

theorem weight_start (files : List (List Str × List Str)) (n : Nat) (jobs : List Job) :
    (genStart files n jobs).weight = genBound n jobs := by
  have h1 : ∀ jobs : List Job, (jobs.map fun j => 2 * j.filters.length + 6).sum =
      2 * (jobs.flatMap Job.filters).length + 6 * jobs.length := by
    intro jobs
    induction jobs with
    | nil => rfl
    | cons j jobs ih =>
      simp only [List.map_cons, List.sum_cons, List.flatMap_cons, List.length_append, List.length_cons, ih]
      omega
  have h2 : ((List.replicate n Phase.idle).map Phase.weight).sum = n := by
    induction n with
    | zero => rfl
    | succ n ih =>
      rw [List.replicate_succ, List.map_cons, List.sum_cons, ih]
      show 1 + n = n + 1
      omega
  unfold GenState.weight genStart genBound
  rw [h1, h2]
  simp

/-! ### it goes on until it has ended -/

/-- no worker returns before the channel is closed and empty -/
structure Doors (n : Nat) (s : GenState) : Prop where
  closed : s.closed = true → s.pending = []
  done : .done ∈ s.workers → s.closed = true ∧ s.queue = []
  count : s.workers.length = n

theorem Doors.step {n cap : Nat} {s s' : GenState} (h : Doors n s) (hs : GenStep cap s s') : Doors n s' := by
  obtain ⟨h1, h2, h3⟩ := h
  cases hs with
  | take hq hw =>
    refine ⟨h1, fun hd => ?_, by rw [hw] at h3; simpa using h3⟩
    have := h2 (by rw [hw]; simpa using hd)
    rw [hq] at this
    exact absurd this.2 (by simp)
  | leave hq hc hw => exact ⟨h1, fun _ => ⟨hc, hq⟩, by rw [hw] at h3; simpa using h3⟩
  | fatal hw hf hj => exact ⟨h1, h2, h3⟩
  | skip hw hf hj => exact ⟨h1, fun hd => h2 (by rw [hw]; simpa using hd), by rw [hw] at h3; simpa using h3⟩
  | absent hw hf => exact ⟨h1, fun hd => h2 (by rw [hw]; simpa using hd), by rw [hw] at h3; simpa using h3⟩
  | create hw => exact ⟨h1, fun hd => h2 (by rw [hw]; simpa using hd), by rw [hw] at h3; simpa using h3⟩
  | sent hw => exact ⟨h1, fun hd => h2 (by rw [hw]; simpa using hd), by rw [hw] at h3; simpa using h3⟩
  | send hw hh => exact ⟨h1, fun hd => h2 (by rw [hw]; simpa using hd), by rw [hw] at h3; simpa using h3⟩
  | write hw => exact ⟨h1, fun hd => h2 (by rw [hw]; simpa using hd), by rw [hw] at h3; simpa using h3⟩
  | put hp hc =>
    refine ⟨fun e => ?_, fun hd => ?_, h3⟩
    · have := h1 e
      rw [hp] at this; cases this
    · have := h1 (h2 hd).1
      rw [hp] at this; cases this
  | close hp hc => exact ⟨fun _ => hp, fun hd => ⟨rfl, (h2 hd).2⟩, h3⟩
  | finish hp hc hd => exact ⟨h1, h2, h3⟩
  | line hl => exact ⟨h1, h2, h3⟩

theorem gen_progress {n cap : Nat} {s : GenState} (h : Doors n s) (hn : 0 < n) (hc : 0 < cap) (he : s.ended = none) :
    ∃ l s', s.step cap l = some s' := by
  have go : ∀ i p, s.workers[i]? = some p → ∀ s', s.workerStep i p = some s' → ∃ l s', s.step cap l = some s' := by
    intro i p hp s' hs
    refine ⟨.worker i, s', ?_⟩
    unfold GenState.step
    rw [if_neg (by simp [he])]
    simp only [hp]
    exact hs
  cases hh : s.held with
  | some l =>
    refine ⟨.writer, { s with held := none, csv := if l.length ≠ 0 then s.csv ++ [l] else s.csv }, ?_⟩
    unfold GenState.step
    rw [if_neg (by simp [he])]
    simp only [GenState.writerStep, hh]
  | none =>
    by_cases hb : ∃ p ∈ s.workers, p ≠ .idle ∧ p ≠ .done
    · obtain ⟨p, hp, h1, h2⟩ := hb
      obtain ⟨i, hi⟩ := List.getElem?_of_mem hp
      cases p with
      | idle => exact absurd rfl h1
      | done => exact absurd rfl h2
      | stat j =>
        by_cases hf : (fileGet s.files j.file).isSome
        · by_cases hj : j.fatal
          · exact go i _ hi { s with ended := some false } (by simp [GenState.workerStep, hf, hj])
          · exact go i _ hi (s.setWorker i .idle) (by simp [GenState.workerStep, hf, hj])
        · exact go i _ hi (s.setWorker i (.create j)) (by simp only [GenState.workerStep]; rw [if_neg hf])
      | create j => exact go i _ hi _ rfl
      | send j rest =>
        cases rest with
        | nil => exact go i _ hi _ rfl
        | cons l rest =>
          exact go i _ hi ({ s with held := some l }.setWorker i (.send j rest)) (by simp only [GenState.workerStep, hh])
      | write j => exact go i _ hi _ rfl
    · have hall : ∀ p ∈ s.workers, p = .idle ∨ p = .done := by
        intro p hp
        by_cases h1 : p = .idle
        · exact .inl h1
        · by_cases h2 : p = .done
          · exact .inr h2
          · exact absurd ⟨p, hp, h1, h2⟩ hb
      by_cases hidle : .idle ∈ s.workers
      · obtain ⟨i, hi⟩ := List.getElem?_of_mem hidle
        cases hq : s.queue with
        | cons j q =>
          exact go i _ hi ({ s with queue := q }.setWorker i (.stat j)) (by simp only [GenState.workerStep, hq])
        | nil =>
          cases hcl : s.closed with
          | true => exact go i _ hi (s.setWorker i .done) (by simp [GenState.workerStep, hq, hcl])
          | false =>
            cases hp : s.pending with
            | cons j rest =>
              refine ⟨.main, { s with pending := rest, queue := s.queue ++ [j] }, ?_⟩
              unfold GenState.step
              rw [if_neg (by simp [he])]
              simp only [GenState.mainStep, hp]
              rw [if_pos (by rw [hq]; exact hc)]
            | nil =>
              refine ⟨.main, { s with closed := true }, ?_⟩
              unfold GenState.step
              rw [if_neg (by simp [he])]
              simp [GenState.mainStep, hp, hcl]
      · have hd : ∀ p ∈ s.workers, p = .done := by
          intro p hp
          rcases hall p hp with rfl | h
          · exact absurd hp hidle
          · exact h
        have hmem : Phase.done ∈ s.workers := by
          have hl : 0 < s.workers.length := by rw [h.count]; exact hn
          obtain ⟨p, hp⟩ := List.exists_mem_of_length_pos hl
          rw [← hd p hp]; exact hp
        obtain ⟨c1, c2⟩ := h.done hmem
        refine ⟨.main, { s with ended := some true }, ?_⟩
        unfold GenState.step
        rw [if_neg (by simp [he])]
        simp only [GenState.mainStep, h.closed c1, c1]
        rw [if_neg (by simp), if_pos]
        rw [List.all_eq_true]
        intro p hp
        simp [hd p hp]

/-! ### one worker -/

/-- the result with lines written before -/
def after (lines : List Str) (r : Option (List (List Str × List Str) × List Str)) : Option (List (List Str × List Str) × List Str) :=
  r.map fun r => (r.1, lines ++ r.2)

theorem after_nil (r : Option (List (List Str × List Str) × List Str)) : after [] r = r := by
  cases r <;> simp [after]

theorem after_after (a b : List Str) (r : Option (List (List Str × List Str) × List Str)) :
    after a (after b r) = after (a ++ b) r := by cases r <;> simp [after]

/-- what remains to be done by one worker -/
def GenState.rest (s : GenState) (p : Phase) : Option (List (List Str × List Str) × List Str) :=
  match p with
  | .idle => oneAfterAnother s.files (s.queue ++ s.pending)
  | .done => oneAfterAnother s.files (s.queue ++ s.pending)
  | .stat j => oneAfterAnother s.files (j :: (s.queue ++ s.pending))
  | .create j => after (nonBlank j.filters) (oneAfterAnother (fileSet s.files j.file j.content) (s.queue ++ s.pending))
  | .send j rest => after (nonBlank rest) (oneAfterAnother (fileSet s.files j.file j.content) (s.queue ++ s.pending))
  | .write j => oneAfterAnother (fileSet s.files j.file j.content) (s.queue ++ s.pending)

/-- the invariant for one worker: what is to come out in the end -/
structure OneInv (R : Option (List (List Str × List Str) × List Str)) (s : GenState) : Prop where
  doors : Doors 1 s
  result : s.ended ≠ some false → ∃ p, s.workers = [p] ∧ R = after s.out (s.rest p)
  fatal : s.ended = some false → R = none
  regular : s.ended = some true → s.closed = true ∧ ∀ p ∈ s.workers, p = .done

theorem one_worker {A B : List Phase} {p q : Phase} (h : [p] = A ++ q :: B) : A = [] ∧ B = [] ∧ p = q := by
  cases A with
  | nil => simp only [List.nil_append, List.cons.injEq] at h; exact ⟨rfl, h.2.symm, h.1⟩
  | cons a A => simp at h

theorem OneInv.step {R : Option (List (List Str × List Str) × List Str)} {cap : Nat} {s s' : GenState}
    (h : OneInv R s) (hn : s.ended = none) (hs : GenStep cap s s') : OneInv R s' := by
  obtain ⟨p, hp, hR⟩ := h.result (by simp [hn])
  refine ⟨h.doors.step hs, ?_, ?_, ?_⟩
  · intro he
    cases hs with
    | @take j q A B hq hw =>
      rw [hp] at hw
      obtain ⟨rfl, rfl, rfl⟩ := one_worker hw
      refine ⟨.stat j, rfl, ?_⟩
      rw [hR]
      simp only [GenState.rest, GenState.out, hq, List.cons_append]
    | @leave A B hq hc hw =>
      rw [hp] at hw
      obtain ⟨rfl, rfl, rfl⟩ := one_worker hw
      exact ⟨.done, rfl, hR⟩
    | fatal hw hf hj => exact absurd rfl he
    | @skip j A B hw hf hj =>
      rw [hp] at hw
      obtain ⟨rfl, rfl, rfl⟩ := one_worker hw
      refine ⟨.idle, rfl, ?_⟩
      rw [hR]
      simp only [GenState.rest, GenState.out, oneAfterAnother, hf, hj, if_true, Bool.false_eq_true, if_false]
    | @absent j A B hw hf =>
      rw [hp] at hw
      obtain ⟨rfl, rfl, rfl⟩ := one_worker hw
      refine ⟨.create j, rfl, ?_⟩
      rw [hR]
      simp only [GenState.rest, GenState.out, oneAfterAnother, hf, Option.isSome_none, Bool.false_eq_true, if_false]
      rfl
    | @create j A B hw =>
      rw [hp] at hw
      obtain ⟨rfl, rfl, rfl⟩ := one_worker hw
      refine ⟨.send j j.filters, rfl, ?_⟩
      rw [hR]
      simp only [GenState.rest, GenState.out, fileSet_twice]
    | @sent j A B hw =>
      rw [hp] at hw
      obtain ⟨rfl, rfl, rfl⟩ := one_worker hw
      refine ⟨.write j, rfl, ?_⟩
      rw [hR]
      simp only [GenState.rest, GenState.out, nonBlank_nil, after_nil]
    | @send j l rest A B hw hh =>
      rw [hp] at hw
      obtain ⟨rfl, rfl, rfl⟩ := one_worker hw
      refine ⟨.send j rest, rfl, ?_⟩
      rw [hR]
      simp only [GenState.rest, GenState.out, hh, after_after]
      congr 1
      have : l :: rest = [l] ++ rest := rfl
      rw [this, nonBlank_append]
      simp [nonBlank]
    | @write j A B hw =>
      rw [hp] at hw
      obtain ⟨rfl, rfl, rfl⟩ := one_worker hw
      exact ⟨.idle, rfl, hR⟩
    | @put j rest hpe hc =>
      refine ⟨p, hp, ?_⟩
      rw [hR]
      have e : ∀ p, ({ s with pending := rest, queue := s.queue ++ [j] } : GenState).rest p = s.rest p := by
        intro p
        cases p <;> simp [GenState.rest, hpe]
      rw [e]
      rfl
    | close hpe hc =>
      refine ⟨p, hp, ?_⟩
      rw [hR]
      cases p <;> rfl
    | finish hpe hc hd =>
      refine ⟨p, hp, ?_⟩
      rw [hR]
      cases p <;> rfl
    | @line l hl =>
      refine ⟨p, hp, ?_⟩
      have hout : ({ s with held := none, csv := if l.length ≠ 0 then s.csv ++ [l] else s.csv } : GenState).out = s.out :=
        out_writer hl
      rw [hout, hR]
      cases p <;> rfl
  · intro he
    cases hs with
    | @fatal j A B hw hf hj =>
      rw [hp] at hw
      obtain ⟨rfl, rfl, rfl⟩ := one_worker hw
      rw [hR]
      simp only [GenState.rest, oneAfterAnother, hf, hj, if_true]
      rfl
    | finish hpe hc hd => cases he
    | _ => exact absurd (he.symm.trans hn) (by simp)
  · intro he
    cases hs with
    | finish hpe hc hd => exact ⟨hc, hd⟩
    | fatal hw hf hj => cases he
    | _ => exact absurd (he.symm.trans hn) (by simp)

/-! ### more workers can do the same -/

/-- the same state with further workers -/
def GenState.widen (s : GenState) (extra : List Phase) : GenState := { s with workers := s.workers ++ extra }

theorem widen_step {cap : Nat} {s s' : GenState} {l : GenLabel} (extra : List Phase) (h : s.step cap l = some s')
    (ht : s'.ended ≠ some true) : (s.widen extra).step cap l = some (s'.widen extra) := by
  have he : s.ended = none := (step_cases h).1
  unfold GenState.step at h ⊢
  rw [if_neg (by simp [he])] at h
  rw [if_neg (by simp [he, GenState.widen])]
  cases l with
  | main =>
    dsimp only at h ⊢
    unfold GenState.mainStep at h ⊢
    cases hp : s.pending with
    | cons j rest =>
      simp only [hp] at h
      simp only [GenState.widen, hp]
      split at h
      · rename_i hc
        cases h
        rw [if_pos hc]
      · cases h
    | nil =>
      simp only [hp] at h
      simp only [GenState.widen, hp]
      split at h
      · rename_i hc
        cases h
        rw [if_pos hc]
      · split at h
        · cases h
          exact absurd rfl ht
        · cases h
  | worker i =>
    dsimp only at h ⊢
    cases hp : s.workers[i]? with
    | none => rw [hp] at h; cases h
    | some p =>
      rw [hp] at h
      dsimp only at h
      have hi : i < s.workers.length := (List.getElem?_eq_some_iff.mp hp).1
      have hp' : (s.widen extra).workers[i]? = some p := by
        show (s.workers ++ extra)[i]? = some p
        rw [List.getElem?_append_left hi]; exact hp
      have hset : ∀ p', (s.workers ++ extra).set i p' = s.workers.set i p' ++ extra := fun p' =>
        List.set_append_left i p' hi
      rw [hp']
      dsimp only
      cases p with
      | idle =>
        simp only [GenState.workerStep] at h
        simp only [GenState.workerStep]
        cases hq : s.queue with
        | cons j q =>
          rw [hq] at h
          cases h
          simp only [GenState.widen, hq, GenState.setWorker, hset]
        | nil =>
          rw [hq] at h
          dsimp only at h
          split at h
          · rename_i hc
            cases h
            simp only [GenState.widen, hq, GenState.setWorker, hset, hc, if_true]
          · cases h
      | stat j =>
        simp only [GenState.workerStep] at h
        simp only [GenState.workerStep]
        split at h
        · rename_i hf
          have hf' : (fileGet (s.widen extra).files j.file).isSome = true := hf
          rw [if_pos hf']
          split at h
          · rename_i hj
            cases h
            rw [if_pos hj]
            rfl
          · rename_i hj
            cases h
            rw [if_neg hj]
            simp only [GenState.widen, GenState.setWorker, hset]
        · rename_i hf
          have hf' : ¬ (fileGet (s.widen extra).files j.file).isSome = true := hf
          cases h
          rw [if_neg hf']
          simp only [GenState.widen, GenState.setWorker, hset]
      | create j =>
        simp only [GenState.workerStep] at h
        cases h
        simp only [GenState.workerStep, GenState.widen, GenState.setWorker, hset]
      | send j rest =>
        cases rest with
        | nil =>
          simp only [GenState.workerStep] at h
          cases h
          simp only [GenState.workerStep, GenState.widen, GenState.setWorker, hset]
        | cons l rest =>
          simp only [GenState.workerStep] at h
          split at h
          · rename_i hh
            cases h
            simp only [GenState.workerStep, GenState.widen, GenState.setWorker, hset, hh]
          · cases h
      | write j =>
        simp only [GenState.workerStep] at h
        cases h
        simp only [GenState.workerStep, GenState.widen, GenState.setWorker, hset]
      | done => simp [GenState.workerStep] at h
  | writer =>
    dsimp only at h ⊢
    unfold GenState.writerStep at h ⊢
    split at h
    · cases h
    · rename_i l hl
      cases h
      simp only [GenState.widen, hl]

theorem step_ended {cap : Nat} {s : GenState} {l : GenLabel} (h : s.ended ≠ none) : s.step cap l = none := by
  unfold GenState.step
  rw [if_pos h]

theorem widen_run {cap : Nat} (extra : List Phase) : ∀ (ls : List GenLabel) (s s' : GenState), s.run cap ls = some s' →
    s'.ended ≠ some true → (s.widen extra).run cap ls = some (s'.widen extra)
  | [], s, s', e, _ => by cases e; rfl
  | l :: ls, s, s', e, ht => by
    unfold GenState.run at e
    rw [List.foldlM_cons] at e
    cases h1 : s.step cap l with
    | none => rw [h1] at e; cases e
    | some s1 =>
      rw [h1] at e
      have e' : s1.run cap ls = some s' := e
      have ht1 : s1.ended ≠ some true := by
        intro he
        cases ls with
        | nil => cases e'; exact ht he
        | cons l2 ls =>
          unfold GenState.run at e'
          rw [List.foldlM_cons, step_ended (by simp [he])] at e'
          cases e'
      unfold GenState.run
      rw [List.foldlM_cons, widen_step extra h1 ht1]
      exact widen_run extra ls s1 s' e' ht

/-- from every state the program can be run until it has ended -/
theorem run_to_end {n cap : Nat} (hn : 0 < n) (hc : 0 < cap) : ∀ (k : Nat) (s : GenState), s.weight ≤ k → Doors n s →
    ∃ ls s', s.run cap ls = some s' ∧ s'.ended ≠ none
  | 0, s, hk, h => by
    by_cases he : s.ended = none
    · obtain ⟨l, s', hs⟩ := gen_progress h hn hc he
      have := weight_step he (step_cases hs).2
      omega
    · exact ⟨[], s, rfl, he⟩
  | k + 1, s, hk, h => by
    by_cases he : s.ended = none
    · obtain ⟨l, s1, hs⟩ := gen_progress h hn hc he
      obtain ⟨a, b⟩ := step_cases hs
      have := weight_step he b
      obtain ⟨ls, s', h1, h2⟩ := run_to_end hn hc k s1 (by omega) (h.step b)
      refine ⟨l :: ls, s', ?_, h2⟩
      unfold GenState.run
      rw [List.foldlM_cons, hs]
      exact h1
    · exact ⟨[], s, rfl, he⟩

theorem Doors.start (files : List (List Str × List Str)) (n : Nat) (J : List Job) : Doors n (genStart files n J) := by
  refine ⟨by simp [genStart], fun h => ?_, by simp [genStart]⟩
  exact absurd (List.eq_of_mem_replicate h) (by simp)

theorem doors_run {n cap : Nat} {s s' : GenState} {ls : List GenLabel} (h : Doors n s) (hr : s.run cap ls = some s') : Doors n s' :=
  gen_run_induct (P := Doors n) (fun _ _ h _ hs => h.step hs) ls s s' h hr

end Gosstrak
