import Verif.Proofs.DatasetRun
import Verif.Props.Dataset

/-! ## The runs of the data set tool: C88 -/
namespace Gosstrak

theorem list_length_le_one_of_held (o : Option Str) : (nonBlank o.toList).length ≤ 1 := by
  cases o with
  | none => simp [nonBlank]
  | some l =>
    unfold nonBlank
    exact Nat.le_trans (List.length_filter_le _ _) (by simp)

/-- With different new files for all jobs the program never ends early. When it has ended, every file has its
    lines, other files are as before, and filters.csv has the lines of all jobs, those of one job in order,
    but one line may be missing. -/
theorem C88_written (cap n : Nat) (hn : 0 < n) (files : List (List Str × List Str)) (jobs : List Job)
    (hd : (jobs.map Job.file).Nodup) (h0 : ∀ j ∈ jobs, fileGet files j.file = none)
    (ls : List GenLabel) (s : GenState) (h : (genStart files n jobs).run cap ls = some s) :
    s.ended ≠ some false ∧
    (s.ended = some true →
      (∀ j ∈ jobs, fileGet s.files j.file = some j.content) ∧
      (∀ p, p ∉ jobs.map Job.file → fileGet s.files p = fileGet files p) ∧
      ∃ missing : List Str, missing.length ≤ 1 ∧
        (s.csv ++ missing).Perm (jobs.flatMap fun j => nonBlank j.filters) ∧
        ∀ j ∈ jobs, (nonBlank j.filters).Sublist (s.csv ++ missing)) := by
  obtain ⟨fin, hi⟩ := gen_run_induct (P := fun s => ∃ fin, GInv files jobs fin n s)
    (fun s s' ⟨fin, h⟩ hn hs => h.step hd hn hs) ls _ s ⟨[], GInv.start n h0⟩ h
  refine ⟨hi.ended.1, fun he => ?_⟩
  obtain ⟨hc, hall⟩ := hi.ended.2 he
  have hmem : Phase.done ∈ s.workers := by
    have hl : 0 < s.workers.length := by rw [hi.count]; exact hn
    obtain ⟨p, hp⟩ := List.exists_mem_of_length_pos hl
    rw [← hall p hp]; exact hp
  have hq := (hi.done hmem).2
  have hp := hi.closed hc
  have e1 : s.workers.flatMap Phase.job = [] := by
    simp only [List.flatMap_eq_nil_iff]; intro p hp; rw [hall p hp]; rfl
  have e2 : s.workers.flatMap Phase.sent = [] := by
    simp only [List.flatMap_eq_nil_iff]; intro p hp; rw [hall p hp]; rfl
  have hperm : fin.Perm jobs := by
    have := hi.jobs
    rw [e1, hq, hp] at this
    simpa using this
  refine ⟨fun j hj => hi.files j (hperm.mem_iff.mpr hj), hi.others, nonBlank s.held.toList,
    list_length_le_one_of_held _, ?_, fun j hj => hi.lines j (hperm.mem_iff.mpr hj)⟩
  have := hi.out
  rw [e2, List.append_nil] at this
  exact this.trans (hperm.flatMap_right _)

/-- Every run is finite, and as long as the program has not ended one of the goroutines can go on. -/
theorem C88_ends (cap n : Nat) (hn : 0 < n) (hcap : 0 < cap) (files : List (List Str × List Str)) (jobs : List Job)
    (ls : List GenLabel) (s : GenState) (h : (genStart files n jobs).run cap ls = some s) :
    ls.length ≤ genBound n jobs ∧ (s.ended = none ↔ ∃ l s', s.step cap l = some s') := by
  refine ⟨?_, ?_, ?_⟩
  · have := weight_run ls _ s h
    rw [weight_start] at this
    omega
  · exact gen_progress (doors_run (Doors.start files n jobs) h) hn hcap
  · rintro ⟨l, s', hs⟩
    exact (step_cases hs).1

/-- With one worker the jobs are done one after the other: a run that ends regularly leaves those files and
    lines, except perhaps the last line, and a run that ends early does so because of an existing file. -/
theorem C88_one_worker (cap : Nat) (files : List (List Str × List Str)) (jobs : List Job)
    (ls : List GenLabel) (s : GenState) (h : (genStart files 1 jobs).run cap ls = some s) :
    (s.ended = some false → oneAfterAnother files jobs = none) ∧
    (s.ended = some true → ∃ missing : List Str, missing.length ≤ 1 ∧
      oneAfterAnother files jobs = some (s.files, s.csv ++ missing)) := by
  have hi := gen_run_induct (P := OneInv (oneAfterAnother files jobs)) (fun s s' h hn hs => h.step hn hs) ls _ s
    ⟨Doors.start files 1 jobs, fun _ => ⟨.idle, rfl, by simp [genStart, GenState.rest, GenState.out, nonBlank, after_nil]⟩,
      fun e => (by cases e), fun e => (by cases e)⟩ h
  refine ⟨hi.fatal, fun he => ⟨nonBlank s.held.toList, list_length_le_one_of_held _, ?_⟩⟩
  obtain ⟨hc, hall⟩ := hi.regular he
  obtain ⟨p, hp, hR⟩ := hi.result (by simp [he])
  have hpd : p = .done := hall p (by rw [hp]; simp)
  subst hpd
  have hq := (hi.doors.done (by rw [hp]; simp)).2
  have hpe := hi.doors.closed hc
  rw [hR]
  simp [GenState.rest, hq, hpe, oneAfterAnother, after, GenState.out]

/-- When doing the jobs one after the other comes upon an existing file that is fatal, then with one worker
    every run that ends is ended early, and with any number of workers some run is. -/
theorem C88_fatal (cap n : Nat) (hn : 0 < n) (hcap : 0 < cap) (files : List (List Str × List Str)) (jobs : List Job)
    (hf : oneAfterAnother files jobs = none) :
    (∀ ls s, (genStart files 1 jobs).run cap ls = some s → s.ended ≠ some true) ∧
    ∃ ls s, (genStart files n jobs).run cap ls = some s ∧ s.ended = some false := by
  have one : ∀ ls s, (genStart files 1 jobs).run cap ls = some s → s.ended ≠ some true := by
    intro ls s h he
    obtain ⟨m, _, hm⟩ := (C88_one_worker cap files jobs ls s h).2 he
    rw [hf] at hm; cases hm
  refine ⟨one, ?_⟩
  obtain ⟨ls, s, hr, he⟩ := run_to_end (n := 1) (cap := cap) (by omega) hcap _ (genStart files 1 jobs) (Nat.le_refl _)
    (Doors.start files 1 jobs)
  have ht := one ls s hr
  refine ⟨ls, s.widen (List.replicate (n - 1) .idle), ?_, ?_⟩
  · have e : (genStart files 1 jobs).widen (List.replicate (n - 1) .idle) = genStart files n jobs := by
      unfold GenState.widen genStart
      have : List.replicate 1 Phase.idle ++ List.replicate (n - 1) .idle = List.replicate n .idle := by
        rw [List.replicate_append_replicate]
        congr 1
        omega
      simp only [this]
    rw [← e]
    exact widen_run _ ls _ s hr ht
  · show s.ended = some false
    cases hs : s.ended with
    | none => exact absurd hs he
    | some b =>
      cases b with
      | false => rfl
      | true => exact absurd hs ht

/-- Two GRAI-96 sets of a round with the same company prefix and asset type: the second ends the program,
    whatever the files were before. -/
theorem C88_same_asset (x : Binutil) (t : BinText) (n : Nat) (r r' : Nat → Str) (p p' : UIIParam)
    (hp : p.schemeName = "grai-96".toList) (hp' : p'.schemeName = "grai-96".toList)
    (hc : p.companyPrefix = p'.companyPrefix) (ha : p.assetType = p'.assetType) (j j' : Job)
    (hj : x.job t n r p = some j) (hj' : x.job t n r' p' = some j')
    (files : List (List Str × List Str)) (before between rest : List Job) :
    oneAfterAnother files (before ++ j :: between ++ j' :: rest) = none := by
  have hpath : ∀ p : UIIParam, p.schemeName = "grai-96".toList → p.path = ["grai-96".toList, p.companyPrefix, p.assetType] := by
    intro p hp
    unfold UIIParam.path
    rw [hp]
    rfl
  have hjob : ∀ (p : UIIParam) (r : Nat → Str) (j : Job), p.schemeName = "grai-96".toList → x.job t n r p = some j →
      j.file = ["grai-96".toList, p.companyPrefix, p.assetType] ∧ j.fatal = true := by
    intro p r j hp hj
    unfold Binutil.job at hj
    cases hu : x.uiiSet t n r p with
    | none => rw [hu] at hj; cases hj
    | some a =>
      rw [hu] at hj
      cases hj
      exact ⟨hpath p hp, by simp [hp]⟩
  obtain ⟨f1, _⟩ := hjob p r j hp hj
  obtain ⟨f2, g2⟩ := hjob p' r' j' hp' hj'
  have same : j'.file = j.file := by rw [f1, f2, hc, ha]
  -- once the file is there, it stays
  have stay : ∀ (l : List Job) (files : List (List Str × List Str)), (fileGet files j'.file).isSome = true →
      oneAfterAnother files (l ++ j' :: rest) = none := by
    intro l
    induction l with
    | nil =>
      intro files h
      simp only [List.nil_append, oneAfterAnother, h, g2, if_true]
    | cons k l ih =>
      intro files h
      simp only [List.cons_append, oneAfterAnother]
      split
      · split
        · rfl
        · exact ih files h
      · rw [ih _ (by rw [fileGet_set]; split <;> simp_all)]
        rfl
  induction before generalizing files with
  | nil =>
    simp only [List.nil_append, List.cons_append, oneAfterAnother]
    split
    · rfl
    · rw [stay between _ (by rw [fileGet_set, if_pos same]; rfl)]
      rfl
  | cons k before ih =>
    simp only [List.cons_append, oneAfterAnother]
    rw [List.append_assoc, List.cons_append] at ih
    split
    · split
      · rfl
      · simpa using ih files
    · have := ih (fileSet files k.file k.content)
      rw [List.append_assoc, List.cons_append, this]
      rfl

/-- Two parameter sets share a file exactly if they have the same scheme and the same company prefix and reference, for
    ISO 17363 the same owner code and for ISO 17365 the same company. -/
theorem C88_same_file (p p' : UIIParam)
    (hp : p.schemeName ∈ ["sgtin-96".toList, "sscc-96".toList, "giai-96".toList, "grai-96".toList, "17363".toList, "17365".toList])
    (hp' : p'.schemeName ∈ ["sgtin-96".toList, "sscc-96".toList, "giai-96".toList, "grai-96".toList, "17363".toList, "17365".toList]) :
    p.path = p'.path ↔ p.schemeName = p'.schemeName ∧
      (p.schemeName = "sgtin-96".toList → p.companyPrefix = p'.companyPrefix ∧ p.itemReference = p'.itemReference) ∧
      (p.schemeName = "sscc-96".toList → p.companyPrefix = p'.companyPrefix) ∧
      (p.schemeName = "giai-96".toList → p.companyPrefix = p'.companyPrefix) ∧
      (p.schemeName = "grai-96".toList → p.companyPrefix = p'.companyPrefix ∧ p.assetType = p'.assetType) ∧
      (p.schemeName = "17363".toList → p.ownerCode = p'.ownerCode) ∧
      (p.schemeName = "17365".toList → p.companyIdentification = p'.companyIdentification) := by
  simp only [List.mem_cons, List.not_mem_nil, or_false] at hp hp'
  rcases hp with h | h | h | h | h | h <;> rcases hp' with h' | h' | h' | h' | h' | h' <;>
    simp [UIIParam.path, h, h']

example : ({ schemeName := "17365".toList, companyIdentification := "A".toList, noFilter := true } : UIIParam).path ≠
    ({ schemeName := "17365".toList, companyIdentification := "B".toList, noFilter := true } : UIIParam).path := by decide +kernel

/-- a round of the lengths asked for can draw the same asset type twice -/
example : { sampleDraw with assetTypes := ["0".toList, "0".toList] }.Ok ∧
    (sampleBinutil.job sampleBinText 1 (fun _ => [])
      { schemeName := "grai-96".toList, companyPrefix := sampleDraw.graiPrefix, assetType := "0".toList, noFilter := true }).isSome :=
  ⟨⟨sampleDraw_ok.cp, sampleDraw_ok.items, sampleDraw_ok.ssccs, sampleDraw_ok.giais, sampleDraw_ok.grai, by decide +kernel,
    sampleDraw_ok.owner, sampleDraw_ok.company⟩, by decide +kernel⟩

/-- two jobs for the examples -/
def sampleJobs : List Job :=
  [⟨["sscc-96".toList, "061414".toList], false, ["f1".toList], ["a".toList, "b".toList]⟩,
   ⟨["grai-96".toList, "061414".toList, "1".toList], true, ["f2".toList, "f3".toList], ["c".toList]⟩]

/-- two workers, interleaved -/
def sampleSchedule : List GenLabel :=
  [.main, .main, .worker 0, .worker 1, .worker 0, .worker 1, .worker 1, .worker 0, .worker 1, .writer, .worker 0, .writer,
   .worker 1, .worker 0, .worker 0, .worker 1, .worker 1, .main, .worker 1, .worker 0, .main]

/-- a regular end in which the last line has not been written: `main` does not wait for the filter
    writer -/
example : (sampleJobs.map Job.file).Nodup ∧ (∀ j ∈ sampleJobs, fileGet [] j.file = none) ∧
    (((genStart [] 2 sampleJobs).run 2 sampleSchedule).map fun s => (s.ended, s.csv)) =
      some (some true, ["f2".toList, "f1".toList]) ∧
    (((genStart [] 2 sampleJobs).run 2 sampleSchedule).map fun s => (s.held, s.files)) =
      some (some "f3".toList,
        [(["grai-96".toList, "061414".toList, "1".toList], ["c".toList]),
         (["sscc-96".toList, "061414".toList], ["a".toList, "b".toList])]) :=
  ⟨by decide +kernel, by decide +kernel, by decide +kernel, by decide +kernel⟩

/-- In the code a filter line can be lost: a run ends regularly and the last line is not in the file. -/
theorem C88_lost : ∃ (jobs : List Job) (ls : List GenLabel) (s : GenState),
    (jobs.map Job.file).Nodup ∧ (∀ j ∈ jobs, fileGet [] j.file = none) ∧ (genStart [] 2 jobs).run 2 ls = some s ∧
    s.ended = some true ∧ ∃ j ∈ jobs, ∃ l ∈ nonBlank j.filters, l ∉ s.csv := by
  have h : ∃ s, (genStart [] 2 sampleJobs).run 2 sampleSchedule = some s ∧ s.ended = some true ∧
      s.csv = ["f2".toList, "f1".toList] := by
    have : (((genStart [] 2 sampleJobs).run 2 sampleSchedule).map fun s => (s.ended, s.csv)) =
        some (some true, ["f2".toList, "f1".toList]) := by decide +kernel
    cases hr : (genStart [] 2 sampleJobs).run 2 sampleSchedule with
    | none => rw [hr] at this; cases this
    | some s =>
      rw [hr] at this
      have := Option.some.inj this
      exact ⟨s, rfl, (Prod.mk.inj this).1, (Prod.mk.inj this).2⟩
  obtain ⟨s, h1, h2, h3⟩ := h
  refine ⟨sampleJobs, sampleSchedule, s, by decide +kernel, by decide +kernel, h1, h2, sampleJobs[1], by decide +kernel,
    "f3".toList, by decide +kernel, ?_⟩
  rw [h3]
  decide

example : oneAfterAnother [] sampleJobs =
    some ([(["grai-96".toList, "061414".toList, "1".toList], ["c".toList]),
        (["sscc-96".toList, "061414".toList], ["a".toList, "b".toList])],
      ["f1".toList, "f2".toList, "f3".toList]) := by decide +kernel

/-- a run with the same GRAI-96 file twice and two workers that ends early, before the other file is written -/
example : oneAfterAnother [] (sampleJobs ++ sampleJobs) = none ∧
    (((genStart [] 2 (sampleJobs.drop 1 ++ sampleJobs.drop 1 ++ sampleJobs)).run 2
      ([.main, .main, .worker 0, .worker 0, .worker 0, .worker 1, .worker 1])).map fun s => (s.ended, s.files)) =
      some (some false, [(["grai-96".toList, "061414".toList, "1".toList], [])]) := by decide +kernel

theorem forall₂_split {α β : Type} {R : α → β → Prop} : ∀ (a b : List α) (l : List β), List.Forall₂ R (a ++ b) l →
    ∃ la lb, List.Forall₂ R a la ∧ List.Forall₂ R b lb ∧ l = la ++ lb
  | [], b, l, h => ⟨[], l, .nil, h, rfl⟩
  | x :: a, b, [], h => by cases h
  | x :: a, b, y :: l, h => by
    cases h with
    | cons h1 h2 =>
      obtain ⟨la, lb, e1, e2, rfl⟩ := forall₂_split a b l h2
      exact ⟨y :: la, lb, .cons h1 e1, e2, rfl⟩

/-- the parameter sets of rounds and the jobs made of them -/
def JobsOf (x : Binutil) (t : BinText) (n : Nat) (ps : List UIIParam) (jobs : List Job) : Prop :=
  List.Forall₂ (fun p j => ∃ r, x.job t n r p = some j) ps jobs

/-- The rounds `ds` of sets with filters and the rounds `ms` without: when all sets have different new files,
    a run that has ended leaves 31 filter lines for each round in `ds`, or one less, and in the file of each set the
    tag lines made of it. -/
theorem C88_rounds (x : Binutil) (hx : x.Ok) (t : BinText) (ht : t.Ok) (num : Nat) (ds ms : List Draw)
    (hds : ∀ d ∈ ds, d.Ok) (jobs : List Job)
    (hj : JobsOf x t num (ds.flatMap (·.params false) ++ ms.flatMap (·.params true)) jobs)
    (hd : ((ds.flatMap (·.params false) ++ ms.flatMap (·.params true)).map UIIParam.path).Nodup)
    (files : List (List Str × List Str))
    (h0 : ∀ p ∈ ds.flatMap (·.params false) ++ ms.flatMap (·.params true), fileGet files p.path = none)
    (cap n : Nat) (hn : 0 < n) (ls : List GenLabel) (s : GenState)
    (h : (genStart files n jobs).run cap ls = some s) (he : s.ended = some true) :
    (∀ p ∈ ds.flatMap (·.params false) ++ ms.flatMap (·.params true), ∃ r fs tags,
      x.uiiSet t num r p = some (fs, tags) ∧ fileGet s.files p.path = some tags ∧
      ∀ l ∈ fs, l ∈ s.csv ∨ s.csv.length + 1 = 31 * ds.length) ∧
    (s.csv.length = 31 * ds.length ∨ s.csv.length + 1 = 31 * ds.length) ∧
    ∀ l ∈ s.csv, ∃ p ∈ ds.flatMap (·.params false), ∃ r fs tags, x.uiiSet t num r p = some (fs, tags) ∧ l ∈ fs := by
  generalize hps : ds.flatMap (·.params false) ++ ms.flatMap (·.params true) = ps at hj hd h0
  have job_eq : ∀ {p : UIIParam} {j : Job}, (∃ r, x.job t num r p = some j) →
      j.file = p.path ∧ ∃ r, x.uiiSet t num r p = some (j.filters, j.content) := by
    rintro p j ⟨r, hr⟩
    unfold Binutil.job at hr
    cases hu : x.uiiSet t num r p with
    | none => rw [hu] at hr; cases hr
    | some a =>
      rw [hu] at hr
      cases hr
      exact ⟨rfl, r, hu⟩
  have hfiles : jobs.map Job.file = ps.map UIIParam.path := by
    clear h0 hd h hps
    induction hj with
    | nil => rfl
    | cons h1 _ ih => rw [List.map_cons, List.map_cons, ih, (job_eq h1).1]
  have hd' : (jobs.map Job.file).Nodup := by rw [hfiles]; exact hd
  have h0' : ∀ j ∈ jobs, fileGet files j.file = none := by
    intro j hj'
    have : j.file ∈ ps.map UIIParam.path := by rw [← hfiles]; exact List.mem_map_of_mem hj'
    obtain ⟨p, h1, h2⟩ := List.mem_map.mp this
    rw [← h2]; exact h0 p h1
  obtain ⟨w1, w2, missing, w3, w4, w5⟩ := (C88_written cap n hn files jobs hd' h0' ls s h).2 he
  -- the jobs with filters and those without
  unfold JobsOf at hj
  rw [← hps] at hj
  obtain ⟨ja, jb, hja, hjb, rfl⟩ : ∃ ja jb, List.Forall₂ (fun p j => ∃ r, x.job t num r p = some j) (ds.flatMap (·.params false)) ja ∧
      List.Forall₂ (fun p j => ∃ r, x.job t num r p = some j) (ms.flatMap (·.params true)) jb ∧ jobs = ja ++ jb :=
    forall₂_split _ _ _ hj
  have hb : ∀ j ∈ jb, j.filters = [] := by
    intro j hjm
    obtain ⟨i, hi⟩ := List.getElem?_of_mem hjm
    obtain ⟨hl, rfl⟩ := List.getElem?_eq_some_iff.mp hi
    have hlen := hjb.length_eq
    have := hjb.get (by omega : i < (ms.flatMap (·.params true)).length) hl
    obtain ⟨_, r, hr⟩ := job_eq this
    obtain ⟨d, _, hdm⟩ := List.mem_flatMap.mp (List.get_mem (ms.flatMap (·.params true)) ⟨i, by omega⟩)
    exact C81_noFilter x t num r d _ hdm _ _ hr
  have houts : List.Forall₂ (fun p fs => ∃ n r tags, x.uiiSet t n r p = some (fs, tags))
      (ds.flatMap (·.params false)) (ja.map Job.filters) := by
    rw [List.forall₂_map_right_iff]
    exact hja.imp fun p j hpj => by
      obtain ⟨_, r, hr⟩ := job_eq hpj
      exact ⟨num, r, _, hr⟩
  obtain ⟨c1, c2, _, _⟩ := C81_counts x hx t ht ds hds _ houts
  have hnb : ∀ j ∈ ja, nonBlank j.filters = j.filters := by
    intro j hjm
    unfold nonBlank
    rw [List.filter_eq_self]
    intro l hl
    have := c2 l (List.mem_flatten.mpr ⟨_, List.mem_map_of_mem hjm, hl⟩)
    simpa using this
  have hlines : (ja ++ jb).flatMap (fun j => nonBlank j.filters) = (ja.map Job.filters).flatten := by
    rw [List.flatMap_append, show jb.flatMap (fun j => nonBlank j.filters) = [] from ?_, List.append_nil]
    · rw [flatMap_congr' ja _ Job.filters hnb]
      rfl
    · rw [List.flatMap_eq_nil_iff]
      intro j hjm
      rw [hb j hjm]
      rfl
  rw [hlines] at w4
  have hcount : s.csv.length + missing.length = 31 * ds.length := by
    have := w4.length_eq
    rw [List.length_append, c1] at this
    exact this
  refine ⟨?_, ?_, ?_⟩
  · intro p hp
    rw [hps] at hj
    obtain ⟨i, hi⟩ := List.getElem?_of_mem hp
    obtain ⟨hl, rfl⟩ := List.getElem?_eq_some_iff.mp hi
    have hlen := hj.length_eq
    have hpj := hj.get hl (by omega : i < (ja ++ jb).length)
    obtain ⟨e1, r, hr⟩ := job_eq hpj
    have hjm : (ja ++ jb).get ⟨i, by omega⟩ ∈ ja ++ jb := List.get_mem _ _
    refine ⟨r, _, _, hr, ?_, ?_⟩
    · have := w1 _ hjm
      rw [e1] at this
      exact this
    · intro l hlm
      have hla : l ∈ s.csv ++ missing := by
        rw [w4.mem_iff, ← hlines]
        refine List.mem_flatMap.mpr ⟨_, hjm, ?_⟩
        rcases List.mem_append.mp hjm with e | e
        · rw [hnb _ e]; exact hlm
        · rw [hb _ e] at hlm
          exact absurd hlm (by simp)
      rcases List.mem_append.mp hla with e | e
      · exact .inl e
      · right
        have : missing.length ≠ 0 := fun e0 => by rw [List.length_eq_zero_iff.mp e0] at e; cases e
        omega
  · omega
  · intro l hlm
    have : l ∈ (ja.map Job.filters).flatten := w4.mem_iff.mp (List.mem_append_left _ hlm)
    obtain ⟨fs, hfs, hl⟩ := List.mem_flatten.mp this
    obtain ⟨j, hjm, rfl⟩ := List.mem_map.mp hfs
    obtain ⟨i, hi⟩ := List.getElem?_of_mem hjm
    obtain ⟨hil, rfl⟩ := List.getElem?_eq_some_iff.mp hi
    have hlen := hja.length_eq
    have hpj := hja.get (by omega : i < (ds.flatMap (·.params false)).length) hil
    obtain ⟨_, r, hr⟩ := job_eq hpj
    exact ⟨_, List.get_mem (ds.flatMap (·.params false)) ⟨i, by omega⟩, r, _, _, hr, hl⟩

/-- a round of the lengths asked for whose sets are all different -/
def distinctDraw : Draw :=
  { cp := "0614141".toList
    itemReferences := (List.range 10).map fun k => "81234".toList ++ decStr k
    ssccPrefixes := ["0614141".toList, "123456".toList]
    giaiPrefixes := ["061414112345".toList, "123456".toList]
    graiPrefix := "06141411234".toList
    assetTypes := ["0".toList, "7".toList]
    ownerCode := "CSQ".toList
    companyIdentification := "AB1".toList }

theorem distinctDraw_ok : distinctDraw.Ok := by
  constructor <;> decide +kernel

/-- its jobs, without tags -/
def roundJobs : List Job := ([distinctDraw].flatMap (·.params false) ++ ([] : List Draw).flatMap (·.params true)).map
  fun p => (sampleBinutil.job sampleBinText 0 (fun _ => []) p).getD ⟨[], false, [], []⟩

/-- the sample round has different files, and there are runs of it that end -/
example : ∃ jobs ls s, JobsOf sampleBinutil sampleBinText 0 ([distinctDraw].flatMap (·.params false) ++ ([] : List Draw).flatMap (·.params true)) jobs ∧
    (([distinctDraw].flatMap (·.params false) ++ ([] : List Draw).flatMap (·.params true)).map UIIParam.path).Nodup ∧
    distinctDraw.Ok ∧ (genStart [] 4 jobs).run 4 ls = some s ∧ s.ended = some true := by
  have hdis : (([distinctDraw].flatMap (·.params false) ++ ([] : List Draw).flatMap (·.params true)).map UIIParam.path).Nodup := by
    decide +kernel
  have hall : ∀ p ∈ [distinctDraw].flatMap (·.params false) ++ ([] : List Draw).flatMap (·.params true),
      (sampleBinutil.job sampleBinText 0 (fun _ => []) p).isSome := by decide +kernel
  have hjobs : JobsOf sampleBinutil sampleBinText 0 ([distinctDraw].flatMap (·.params false) ++ ([] : List Draw).flatMap (·.params true))
      roundJobs := by
    unfold JobsOf roundJobs
    rw [List.forall₂_map_right_iff, List.forall₂_same]
    intro p hp
    obtain ⟨j, hj⟩ := Option.isSome_iff_exists.mp (hall p hp)
    exact ⟨fun _ => [], by rw [hj]; rfl⟩
  have hfile : (roundJobs.map Job.file).Nodup := by decide +kernel
  obtain ⟨ls, s, hr, he⟩ := run_to_end (n := 4) (cap := 4) (by omega) (by omega) _ (genStart [] 4 roundJobs) (Nat.le_refl _)
    (Doors.start [] 4 roundJobs)
  refine ⟨roundJobs, ls, s, hjobs, hdis, distinctDraw_ok, hr, ?_⟩
  have := (C88_written 4 4 (by omega) [] roundJobs hfile (by intro j _; rfl) ls s hr).1
  cases hs : s.ended with
  | none => exact absurd hs he
  | some b =>
    cases b with
    | false => exact absurd hs this
    | true => rfl

end Gosstrak
