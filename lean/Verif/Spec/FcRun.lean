import Verif.Model.FcRun
import Verif.Spec.Main

/-!
What is owed to the reader and which batches there are, read off the messages.
-/
namespace Gosstrak

/-- the bytes that have come from the reader -/
def arrivedIn (ls : List FcLabel) : List Byte :=
  ls.flatMap fun l => match l with
    | .arrive bs => bs
    | _ => []

/-- the replies owed for the messages, with this message id -/
def repliesTo (id : BitVec 32) (as : List LlrpAction) : List FcReply :=
  as.filterMap fun a => match a with
    | .setReaderConfig => some (.setReaderConfig id)
    | .keepaliveAck => some (.keepaliveAck id)
    | _ => none

/-- the bodies of the reports among the messages -/
def reportBodies (as : List LlrpAction) : List (List Byte) :=
  as.filterMap fun a => match a with
    | .report body => some body
    | _ => none

variable {σ : Type}

/-- the batch under way between the two goroutines and in the search -/
def Fc.underWay (s : Fc σ) : List (List ReadEvent) :=
  (match s.listener with
    | .searching batch _ _ => [batch]
    | .waiting => []) ++
  (match s.main with
    | .handing batch => [batch]
    | .reading => [])

/-- all batches there have been, in order -/
def Fc.batches (s : Fc σ) : List (List ReadEvent) := s.done.map Prod.fst ++ s.underWay

/-- The factory, in this state, gives these answers to the events one after another, and is in that state
    then. -/
inductive Answered (ans : AnswerRel σ) : σ → List ReadEvent → List SearchResult → σ → Prop
  | nil (x : σ) : Answered ans x [] [] x
  | cons {x y z e r es rs} (h : ans x e (some (r, y))) (t : Answered ans y es rs z) :
      Answered ans x (e :: es) (r :: rs) z

/-- The factory answers the batches one after another, and these are the reports collected of the answers
    for each. -/
inductive Collected (ans : AnswerRel σ) : σ → List (List ReadEvent × List (Str × List Str)) → σ → Prop
  | nil (x : σ) : Collected ans x [] x
  | cons {x y z batch results l} (h : Answered ans x batch results y) (t : Collected ans y l z) :
      Collected ans x ((batch, collectReports results) :: l) z

/-- While it goes through these events, the factory always has an answer and never panics. -/
def AlwaysAnswers (ans : AnswerRel σ) (x : σ) (events : List ReadEvent) : Prop :=
  ∀ before e after results y, events = before ++ e :: after → Answered ans x before results y →
    ¬ ans y e none ∧ ∃ r, ans y e (some r)

/-- moves of the program itself -/
def FcLabel.Own : FcLabel → Prop
  | .arrive _ => False
  | .eof => False
  | _ => True

/-- The program does not move unless the reader does. -/
def Fc.AtRest (env : FcEnv) (ans : AnswerRel σ) (s : Fc σ) : Prop :=
  ∀ l t, l.Own → ¬ FcStep env ans s l t

end Gosstrak
