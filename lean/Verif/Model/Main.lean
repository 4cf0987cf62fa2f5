import Verif.Model.ListEngine
import Verif.Model.Go

/-!
`cmd/gosstrak-fc/main.go`: the loop that reads LLRP messages from the reader (lines 257-303) and the
goroutine that collects the reports of a batch of tags (lines 219-246).

The connection is the list of bytes received so far; `io.ReadFull` waits until it has all the bytes
it wants. The `go-llrp` package is not modelled: the four header values are parameters, the bytes it
writes and the decoding of a report body are not looked into.
-/
namespace Gosstrak

/-- the constants of go-llrp used in main.go:289-297 -/
structure LlrpHeaders where
  readerEventNotification : Nat
  keepalive : Nat
  setReaderConfigResponse : Nat
  roAccessReport : Nat

/-- what the loop does with a message -/
inductive LlrpAction where
  /-- main.go:291 -/
  | setReaderConfig
  /-- main.go:294 -/
  | keepaliveAck
  /-- main.go:296 -/
  | logOnly
  /-- main.go:299: the body goes to the search loop -/
  | report (body : List Byte)
deriving DecidableEq, Repr

/-- how the loop stands at the end of the bytes received so far -/
inductive LlrpEnd where
  /-- in some `io.ReadFull`, having taken these bytes of a message -/
  | waiting (taken : List Byte)
  /-- main.go:301 -/
  | unknownHeader (h : Nat)
deriving DecidableEq, Repr

/-- `binary.BigEndian` -/
def bigEndian (bs : List Byte) : Nat := bs.foldl (fun n b => n * 256 + b.toNat) 0

/-- main.go:278: `uint32 - 10` -/
def messageSize (length : List Byte) : Nat := (BitVec.ofNat 32 (bigEndian length) - 10#32).toNat

/-- main.go:262-287: header, message id and body of the next message and the bytes behind it -/
def readMessage (s : List Byte) : Option (Nat × Nat × List Byte × List Byte) :=
  if s.length < 10 then none
  else
    let size := messageSize ((s.drop 2).take 4)
    let s' := s.drop 10
    if s'.length < size then none
    else some (bigEndian (s.take 2), bigEndian ((s.drop 6).take 4), s'.take size, s'.drop size)

theorem readMessage_shorter {s : List Byte} {h mid : Nat} {body rest : List Byte}
    (e : readMessage s = some (h, mid, body, rest)) : rest.length < s.length := by
  unfold readMessage at e
  split at e
  · cases e
  dsimp only at e
  split at e
  · cases e
  cases e
  simp only [List.length_drop] at *
  omega

/-- main.go:288-302 -/
def llrpSwitch (hs : LlrpHeaders) (h : Nat) (body : List Byte) : Option LlrpAction :=
  if h = hs.readerEventNotification then some .setReaderConfig
  else if h = hs.keepalive then some .keepaliveAck
  else if h = hs.setReaderConfigResponse then some .logOnly
  else if h = hs.roAccessReport then some (.report body)
  else none

/-- main.go:261-303 -/
def llrpLoop (hs : LlrpHeaders) (s : List Byte) : List LlrpAction × LlrpEnd :=
  match _e : readMessage s with
  | none => ([], .waiting s)
  | some (h, _, body, rest) =>
    match llrpSwitch hs h body with
    | none => ([], .unknownHeader h)
    | some a => (a :: (llrpLoop hs rest).1, (llrpLoop hs rest).2)
termination_by s.length
decreasing_by all_goals exact readMessage_shorter _e

/-- main.go:233-238: one event -/
def addReports (reports : List (Str × List Str)) (pureIdentity : Str) (uris : List Str) :
    List (Str × List Str) :=
  uris.foldl (fun m dest =>
    let m := if (mapGet m dest).isNone then mapSet m dest [] else m
    mapSet m dest ((mapGet m dest).getD [] ++ [pureIdentity])) reports

/-- main.go:227-239: a batch of events, given what the searches returned -/
def collectReports (results : List SearchResult) : List (Str × List Str) :=
  results.foldl (fun m r => if r.err then m else addReports m r.pureIdentity r.reportURIs) []

end Gosstrak
