import Verif.Model.Main

/-!
`cmd/gosstrak-fc/main.go` as a program: the package variables (lines 59-63, 106), the loop over the messages
of the reader (lines 257-303) and the goroutine that searches and collects reports (lines 219-246), which
run concurrently and meet at the unbuffered channel `rq`.

Reading one message is one step: between its four `io.ReadFull` the loop does nothing, and what it waits
for is in `pending`. The factory is a parameter: its states `σ`, and what it answers to a read event in a
state, with the state afterwards. This is a relation `ans`, since it depends on the engine selected at that
moment; `none` is a panic in the search. `Model/Engines.lean` has the four engines of the code for it. The
decoding of a report
body by go-llrp is a parameter, with `none` for a panic. An error of `conn.Write` is ignored by the code.
The statistics and the management listener, which only mirrors its connections, are not part of this model
(see `Model/Factory.lean` and `Model/Stat.lean` for the former, `Model/Managed.lean` for the latter).
-/
namespace Gosstrak

/-- PC bits and ID of a read event -/
abbrev ReadEvent := List Byte × List Byte

/-- go-llrp: the header values and `UnmarshalROAccessReportBody` -/
structure FcEnv where
  headers : LlrpHeaders
  decode : List Byte → Option (List ReadEvent)

/-- main.go:59-63, 106: the value behind the flag and the variable made of it -/
structure FcVars where
  llrpInitialMessageID : Int
  currentMessageID : BitVec 32
deriving DecidableEq

/-- Package initialisation, before `main`: `Int()` of main.go:63 gives a pointer to a new, zero, integer;
    main.go:106 reads it. -/
def fcInit : FcVars :=
  let target : Int := 0
  ⟨target, BitVec.ofInt 32 target⟩

/-- main.go:308: `app.Parse` stores the given value or the default of main.go:62 behind the pointer. -/
def fcParse (v : FcVars) (flag : Option Int) : FcVars := { v with llrpInitialMessageID := flag.getD 1000 }

/-- what is written to the reader, main.go:291 and 294 -/
inductive FcReply where
  | setReaderConfig (messageID : BitVec 32)
  | keepaliveAck (messageID : BitVec 32)
deriving DecidableEq

/-- where the loop over messages is -/
inductive FcMain where
  /-- main.go:262-287 -/
  | reading
  /-- main.go:299: sending on `rq` -/
  | handing (batch : List ReadEvent)
deriving DecidableEq

/-- where the searching goroutine is -/
inductive FcListener where
  /-- main.go:221 -/
  | waiting
  /-- main.go:226-239: `todo` is still to be searched of `batch`, `reports` is the map -/
  | searching (batch todo : List ReadEvent) (reports : List (Str × List Str))
deriving DecidableEq

/-- how the process ended -/
inductive FcEnd where
  /-- `log.Fatal`, main.go:264, 268, 272, 284, 301 -/
  | fatal
  /-- a panic in some goroutine -/
  | panic
deriving DecidableEq

variable {σ : Type}

/-- what the factory answers in a state -/
abbrev AnswerRel (σ : Type) := σ → ReadEvent → Option (SearchResult × σ) → Prop

/-- The state of the process. `done` are the batches with their collected reports; the code drops the
    latter (main.go:241-243). -/
structure Fc (σ : Type) where
  factory : σ
  vars : FcVars
  pending : List Byte
  main : FcMain
  listener : FcListener
  written : List FcReply
  done : List (List ReadEvent × List (Str × List Str))
  ended : Option FcEnd

/-- main.go:306-325 with this command line, up to the connection to the reader -/
def fcStart (factory : σ) (flag : Option Int) : Fc σ :=
  ⟨factory, fcParse fcInit flag, [], .reading, .waiting, [], [], none⟩

/-- main.go:288-302, the body of a `case` -/
def fcAct (env : FcEnv) (s : Fc σ) (a : LlrpAction) : Fc σ :=
  match a with
  | .setReaderConfig => { s with written := s.written ++ [.setReaderConfig s.vars.currentMessageID] }
  | .keepaliveAck => { s with written := s.written ++ [.keepaliveAck s.vars.currentMessageID] }
  | .logOnly => s
  | .report body =>
    match env.decode body with
    | none => { s with ended := some .panic }
    | some batch => { s with main := .handing batch }

/-- main.go:229-238: what the answer to one event adds to the map -/
def fcCollect (reports : List (Str × List Str)) (r : SearchResult) : List (Str × List Str) :=
  if r.err then reports else addReports reports r.pureIdentity r.reportURIs

/-- the moves -/
inductive FcLabel where
  /-- bytes come from the reader -/
  | arrive (bs : List Byte)
  /-- the reader closes the connection -/
  | eof
  /-- the loop takes a message -/
  | read
  /-- the batch goes through the channel -/
  | hand
  /-- a search returns or panics -/
  | search (r : Option SearchResult)
  /-- a batch is done -/
  | finish

/-- the moves of the program and of the reader -/
inductive FcStep (env : FcEnv) (ans : AnswerRel σ) : Fc σ → FcLabel → Fc σ → Prop
  /-- the network -/
  | arrive {s : Fc σ} {bs : List Byte} (he : s.ended = none) :
      FcStep env ans s (.arrive bs) { s with pending := s.pending ++ bs }
  /-- main.go:264, 268, 272, 284 -/
  | eof {s : Fc σ} (he : s.ended = none) (hm : s.main = .reading) (hr : readMessage s.pending = none) :
      FcStep env ans s .eof { s with ended := some .fatal }
  /-- main.go:262-299 -/
  | read {s : Fc σ} {h mid : Nat} {body rest : List Byte} {a : LlrpAction} (he : s.ended = none)
      (hm : s.main = .reading) (hr : readMessage s.pending = some (h, mid, body, rest))
      (ha : llrpSwitch env.headers h body = some a) :
      FcStep env ans s .read (fcAct env { s with pending := rest } a)
  /-- main.go:301 -/
  | unknown {s : Fc σ} {h mid : Nat} {body rest : List Byte} (he : s.ended = none) (hm : s.main = .reading)
      (hr : readMessage s.pending = some (h, mid, body, rest)) (ha : llrpSwitch env.headers h body = none) :
      FcStep env ans s .read { s with ended := some .fatal }
  /-- main.go:221, 226, 299 -/
  | hand {s : Fc σ} {batch : List ReadEvent} (he : s.ended = none) (hm : s.main = .handing batch)
      (hl : s.listener = .waiting) :
      FcStep env ans s .hand { s with main := .reading, listener := .searching batch batch [] }
  /-- main.go:228-238 -/
  | search {s : Fc σ} {batch todo : List ReadEvent} {e : ReadEvent} {reports : List (Str × List Str)}
      {r : SearchResult} {factory : σ} (he : s.ended = none)
      (hl : s.listener = .searching batch (e :: todo) reports) (ha : ans s.factory e (some (r, factory))) :
      FcStep env ans s (.search (some r))
        { s with factory := factory, listener := .searching batch todo (fcCollect reports r) }
  /-- main.go:228 -/
  | crash {s : Fc σ} {batch todo : List ReadEvent} {e : ReadEvent} {reports : List (Str × List Str)}
      (he : s.ended = none) (hl : s.listener = .searching batch (e :: todo) reports) (ha : ans s.factory e none) :
      FcStep env ans s (.search none) { s with ended := some .panic }
  /-- main.go:239-244 -/
  | finish {s : Fc σ} {batch : List ReadEvent} {reports : List (Str × List Str)} (he : s.ended = none)
      (hl : s.listener = .searching batch [] reports) :
      FcStep env ans s .finish { s with listener := .waiting, done := s.done ++ [(batch, reports)] }

/-- sequences of moves -/
inductive FcRun (env : FcEnv) (ans : AnswerRel σ) : Fc σ → List FcLabel → Fc σ → Prop
  | nil (s : Fc σ) : FcRun env ans s [] s
  | snoc {s t u : Fc σ} {ls : List FcLabel} {l : FcLabel} (h : FcRun env ans s ls t)
      (hs : FcStep env ans t l u) : FcRun env ans s (ls ++ [l]) u

end Gosstrak
