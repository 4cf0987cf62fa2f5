import Verif.Model.Dataset

/-!
`test/gendataset.go` as a concurrent program: the main goroutine, the workers and the filter writer.
What a worker does with one parameter set is a `Job`, made of the texts in Model/Dataset. Creating
directories is left out, and so are errors of the file system; a path is the list of its parts behind the
target directory (`path.Join` joins them; no part is empty or contains a slash). The lines of a tag
file, which reach it in pieces, are written in one step.
-/
namespace Gosstrak

/-- what a worker makes of one parameter set: the path of its file, whether an existing file ends the
    program, the lines for the filter writer and the lines of the file -/
structure Job where
  file : List Str
  fatal : Bool
  filters : List Str
  content : List Str
deriving DecidableEq, Repr

/-- test/gendataset.go:87-89, 116-118, 140-142, 165-167, 192-194, 215-217: the path of the file -/
def UIIParam.path (p : UIIParam) : List Str :=
  if p.schemeName = "sgtin-96".toList then [p.schemeName, p.companyPrefix, p.itemReference]
  else if p.schemeName = "sscc-96".toList then [p.schemeName, p.companyPrefix]
  else if p.schemeName = "giai-96".toList then [p.schemeName, p.companyPrefix]
  else if p.schemeName = "grai-96".toList then [p.schemeName, p.companyPrefix, p.assetType]
  else if p.schemeName = "17363".toList then ["iso".toList ++ p.schemeName, p.ownerCode]
  else ["iso".toList ++ p.schemeName, p.companyIdentification]

/-- test/gendataset.go:85-238: the job for a parameter set with one of the six schemes. Only for
    GRAI-96 an existing file is fatal (168-170), the others pass on to the next set. -/
def Binutil.job (x : Binutil) (t : BinText) (n : Nat) (r : Nat → Str) (p : UIIParam) : Option Job :=
  (x.uiiSet t n r p).map fun (f, tags) => ⟨p.path, decide (p.schemeName = "grai-96".toList), f, tags⟩

/-- where a worker is (test/gendataset.go:77-240) -/
inductive Phase where
  /-- 80: at the receive -/
  | idle
  /-- 90 and the like: before `os.Stat` -/
  | stat (j : Job)
  /-- 93 and the like: before `os.Create` -/
  | create (j : Job)
  /-- 98-103 and the like: these lines are still to be sent -/
  | send (j : Job) (rest : List Str)
  /-- 106-112 and the like -/
  | write (j : Job)
  /-- 82: returned -/
  | done
deriving DecidableEq, Repr

/-- the state of the program -/
structure GenState where
  /-- 267-388: what the main goroutine still has to send -/
  pending : List Job
  /-- 256: the channel `q` -/
  queue : List Job
  /-- 390 -/
  closed : Bool
  workers : List Phase
  /-- 56: a line that the filter writer has received and not yet written -/
  held : Option Str
  /-- the lines of filters.csv -/
  csv : List Str
  /-- the tag files -/
  files : List (List Str × List Str)
  /-- whether the process has ended: with `true` from `main`, with `false` by `log.Fatal` -/
  ended : Option Bool

/-- the goroutines -/
inductive GenLabel where
  | main
  | worker (i : Nat)
  | writer
deriving DecidableEq, Repr

/-- the content of a file -/
def fileGet (files : List (List Str × List Str)) (p : List Str) : Option (List Str) :=
  (files.find? fun e => decide (e.1 = p)).map Prod.snd

/-- a file gets a new content -/
def fileSet (files : List (List Str × List Str)) (p : List Str) (c : List Str) : List (List Str × List Str) :=
  (p, c) :: files.filter fun e => decide (e.1 ≠ p)

/-- the worker `i` goes on to `p` -/
def GenState.setWorker (s : GenState) (i : Nat) (p : Phase) : GenState := { s with workers := s.workers.set i p }

/-- test/gendataset.go:77-240: one step of the worker `i`, which is at the given place; `none` when it
    has to wait or has returned. The channel `fq` has no buffer (252): a line is handed over when the filter
    writer is at its receive. -/
def GenState.workerStep (s : GenState) (i : Nat) : Phase → Option GenState
  | .idle => match s.queue with
    | j :: q => some ({ s with queue := q }.setWorker i (.stat j))
    | [] => if s.closed then some (s.setWorker i .done) else none
  | .stat j =>
    if (fileGet s.files j.file).isSome then
      if j.fatal then some { s with ended := some false } else some (s.setWorker i .idle)
    else some (s.setWorker i (.create j))
  | .create j => some ({ s with files := fileSet s.files j.file [] }.setWorker i (.send j j.filters))
  | .send j [] => some (s.setWorker i (.write j))
  | .send j (l :: rest) => match s.held with
    | none => some ({ s with held := some l }.setWorker i (.send j rest))
    | some _ => none
  | .write j => some ({ s with files := fileSet s.files j.file j.content }.setWorker i .idle)
  | .done => none

/-- test/gendataset.go:267-392: one step of `main`: a send to the channel with `cap` places, the closing
    of the channel, or the end after `wg.Wait` -/
def GenState.mainStep (cap : Nat) (s : GenState) : Option GenState :=
  match s.pending with
  | j :: rest => if s.queue.length < cap then some { s with pending := rest, queue := s.queue ++ [j] } else none
  | [] =>
    if ¬ s.closed then some { s with closed := true }
    else if s.workers.all (· == .done) then some { s with ended := some true }
    else none

/-- test/gendataset.go:54-63: the filter writer writes a line it has received, unless it is empty -/
def GenState.writerStep (s : GenState) : Option GenState :=
  match s.held with
  | none => none
  | some l => some { s with held := none, csv := if l.length ≠ 0 then s.csv ++ [l] else s.csv }

/-- one step of a goroutine -/
def GenState.step (cap : Nat) (s : GenState) (l : GenLabel) : Option GenState :=
  if s.ended ≠ none then none
  else match l with
    | .main => s.mainStep cap
    | .worker i => match s.workers[i]? with
      | none => none
      | some p => s.workerStep i p
    | .writer => s.writerStep

/-- test/gendataset.go:242-266: the state after the goroutines have been started, with `n` workers and
    these files already there -/
def genStart (files : List (List Str × List Str)) (n : Nat) (jobs : List Job) : GenState :=
  ⟨jobs, [], false, List.replicate n .idle, none, [], files, none⟩

/-- a run -/
def GenState.run (cap : Nat) (s : GenState) (ls : List GenLabel) : Option GenState := ls.foldlM (GenState.step cap) s

end Gosstrak
