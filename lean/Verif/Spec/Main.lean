import Verif.Model.Main
import Verif.Spec.Subs

/-!
LLRP messages on the wire, independent of the loop that reads them, and the reports owed to a
destination.
-/
namespace Gosstrak

/-- two bytes, most significant first -/
def wire16 (x : BitVec 16) : List Byte := [x.extractLsb' 8 8, x.extractLsb' 0 8]

/-- four bytes, most significant first -/
def wire32 (x : BitVec 32) : List Byte :=
  [x.extractLsb' 24 8, x.extractLsb' 16 8, x.extractLsb' 8 8, x.extractLsb' 0 8]

structure LlrpMessage where
  header : BitVec 16
  id : BitVec 32
  body : List Byte

/-- the whole message fits into the length field -/
def LlrpMessage.Fits (m : LlrpMessage) : Prop := m.body.length + 10 < 2 ^ 32

/-- header, length of the whole message, id, body -/
def LlrpMessage.wire (m : LlrpMessage) : List Byte :=
  wire16 m.header ++ wire32 (BitVec.ofNat 32 (m.body.length + 10)) ++ wire32 m.id ++ m.body

/-- the four headers differ, as `switch` demands -/
def LlrpHeaders.Distinct (hs : LlrpHeaders) : Prop :=
  [hs.readerEventNotification, hs.keepalive, hs.setReaderConfigResponse, hs.roAccessReport].Nodup

/-- what is to be done on receipt of a message -/
inductive Answer (hs : LlrpHeaders) : LlrpMessage → LlrpAction → Prop where
  | notification (m) (h : m.header.toNat = hs.readerEventNotification) : Answer hs m .setReaderConfig
  | keepalive (m) (h : m.header.toNat = hs.keepalive) : Answer hs m .keepaliveAck
  | response (m) (h : m.header.toNat = hs.setReaderConfigResponse) : Answer hs m .logOnly
  | report (m) (h : m.header.toNat = hs.roAccessReport) : Answer hs m (.report m.body)

/-- the messages are answered one by one -/
inductive Answers (hs : LlrpHeaders) : List LlrpMessage → List LlrpAction → Prop where
  | nil : Answers hs [] []
  | cons {m a ms as} (h : Answer hs m a) (t : Answers hs ms as) : Answers hs (m :: ms) (a :: as)

/-- the identities owed to destination `d`: one for each time an event was reported for it -/
def owed (results : List SearchResult) (d : Str) : List Str :=
  results.flatMap fun r => if r.err then [] else List.replicate (r.reportURIs.count d) r.pureIdentity

end Gosstrak
