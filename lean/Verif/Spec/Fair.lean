import Verif.Spec.Whole

/-!
Endless executions of the whole program in which no goroutine is passed over for ever.
-/
namespace Gosstrak

/-- The kind of a move: without the order chosen for a search, without the duration of a search, and a search
    of an engine whether it finds something, nothing, or panics. -/
def ProgLabel.kind : ProgLabel → ProgLabel
  | .factory (.search _) => .factory (.search [])
  | .factory (.track _) => .factory (.track 0)
  | .factory (.engineSearch _) => .panic
  | l => l

variable {F : Type}

/-- A move of this kind is possible. -/
def Prog.Can (env : FcEnv) (c : Config F) (tr : Translator) (s : Prog F) (k : ProgLabel) : Prop :=
  ∃ l t, l.kind = k.kind ∧ ProgStep env c tr s l t

/-- No kind of moves of the program itself is possible again and again without being made again and again. Go
    gives this with probability one: `select` chooses at random, and goroutines waiting for a channel or to be
    scheduled queue up. -/
def Prog.Fair (env : FcEnv) (c : Config F) (tr : Translator) (s : Nat → Prog F) (l : Nat → ProgLabel) : Prop :=
  ∀ k : ProgLabel, k.Own → (∀ i, ∃ j, i ≤ j ∧ (s j).Can env c tr k) → ∀ i, ∃ j, i ≤ j ∧ (l j).kind = k.kind

/-- The same with less: no kind of moves of the program itself is possible without interruption and never made. -/
def Prog.WeaklyFair (env : FcEnv) (c : Config F) (tr : Translator) (s : Nat → Prog F) (l : Nat → ProgLabel) : Prop :=
  ∀ k : ProgLabel, k.Own → ∀ i, (∀ j, i ≤ j → (s j).Can env c tr k) → ∃ j, i ≤ j ∧ (l j).kind = k.kind

/-- An endless execution from the start of the program: its states and the moves between them. -/
structure Prog.Endless (env : FcEnv) (c : Config F) (tr : Translator) (start : Prog F) (s : Nat → Prog F)
    (l : Nat → ProgLabel) : Prop where
  start : s 0 = start
  moves : ∀ i, ProgStep env c tr (s i) (l i) (s (i + 1))

/-- the bytes that have come from the reader before this moment -/
def arrivedBy (l : Nat → ProgLabel) (i : Nat) : List Byte := arrivedIn (fcMoves ((List.range i).map l))

/-- The reader sends these messages one after the other, in whatever portions; they are to be answered like this, the
    reports can be decoded, and their tags have these identities. -/
structure Sends (env : FcEnv) (l : Nat → ProgLabel) (ms : Nat → LlrpMessage) (as : Nat → LlrpAction)
    (ident : ReadEvent → Str) : Prop where
  portions : ∀ i, ∃ n, arrivedBy l i <+: ((List.range n).map ms).flatMap LlrpMessage.wire
  fits : ∀ k, (ms k).Fits
  answers : ∀ k, Answer env.headers (ms k) (as k)
  reports : ∀ k body, as k = .report body → ∃ batch, env.decode body = some batch ∧
    ∀ e ∈ batch, ReadEvent.Has e (ident e)

end Gosstrak
