import Verif.Model.Factory

/-!
`monitoring/stat_manager.go`, `monitoring/stat_message.go` and the conversion of messages in
`cmd/gosstrak-fc/main.go:135-168`. Of the InfluxDB client is used: `NewPoint` accepts some points
(a parameter) and refuses others, `AddPoint` appends, `Write` sends the whole batch and succeeds.
Time stamps are left out.
-/
namespace Gosstrak

/-- an `interface{}` value -/
inductive AnyVal (F : Type) where
  | int64 (n : Int)
  | int (n : Int)
  | float64 (f : F)
  | other
deriving DecidableEq, Repr

/-- monitoring/stat_message.go:9-18; `other` is a number that is no constant -/
inductive StatType where
  | traffic | engineThroughput | selectedEngine | other
deriving DecidableEq, Repr

/-- monitoring/stat_message.go:20-25 -/
structure StatMessage (F : Type) where
  type : StatType
  value : List (AnyVal F)
  name : Str
deriving DecidableEq, Repr

/-- a point without its time stamp -/
structure Point (F : Type) where
  measurement : Str
  tags : List (Str × Str)
  fields : List (Str × AnyVal F)
deriving DecidableEq, Repr

/-- result of building a point: stat_manager.go:62, 67 `continue`; index out of range -/
inductive PointResult (F : Type) where
  | skip
  | panic
  | point (p : Point F)
deriving DecidableEq, Repr

/-- the quotient in stat_manager.go:71 -/
abbrev Percent (F : Type) := Int → Int → F

/-- monitoring/stat_manager.go:80-91 -/
def engineType (name : Str) : Int :=
  if name = "Legacy".toList then 0
  else if name = "List".toList then 1
  else if name = "PatriciaTrie".toList then 2
  else if name = "SplayTree".toList then 3
  else 0

/-- monitoring/stat_manager.go:53-93 -/
def buildPoint {F : Type} (percent : Percent F) (msg : StatMessage F) : PointResult F :=
  match msg.type with
  | .traffic =>
    match msg.value with
    | [] => .panic
    | v :: vs =>
      match v with
      | .int64 ingress =>
        match vs with
        | [] => .panic
        | .int64 matches_ :: _ => .point ⟨"traffic".toList, [("engine".toList, msg.name)],
            [("incoming_events".toList, .int64 ingress), ("matched_events".toList, .int64 matches_)] ++
            (if ingress ≠ 0 then [("matching_probability".toList, .float64 (percent matches_ ingress))] else [])⟩
        | _ => .skip
      | _ => .skip
  | .engineThroughput =>
    match msg.value with
    | [] => .panic
    | v :: _ => .point ⟨"throughput".toList, [("engine".toList, msg.name)], [("event_per_us".toList, v)]⟩
  | .selectedEngine => .point ⟨"engine".toList, [], [("selected".toList, .int (engineType msg.name))]⟩
  | .other => .point ⟨[], [], []⟩

/-- the state of the goroutine: `bp`, the batches written so far, whether the process has ended -/
structure StatState (F : Type) where
  batch : List (Point F)
  writes : List (List (Point F))
  dead : Bool

/-- monitoring/stat_manager.go:47-104: one message -/
def StatState.handle {F : Type} (percent : Percent F) (accept : Point F → Bool) (s : StatState F)
    (msg : StatMessage F) : StatState F :=
  if s.dead then s
  else match buildPoint percent msg with
    | .skip => s
    | .panic => { s with dead := true }
    | .point p =>
      if accept p then ⟨s.batch ++ [p], s.writes ++ [s.batch ++ [p]], false⟩
      else { s with dead := true }

/-- a sequence of messages -/
def statRun {F : Type} (percent : Percent F) (accept : Point F → Bool) (ms : List (StatMessage F)) :
    StatState F :=
  ms.foldl (StatState.handle percent accept) ⟨[], [], false⟩

/-- cmd/gosstrak-fc/main.go:141-165 -/
def Msg.toStat {F : Type} : Msg F → Option (StatMessage F)
  | .traffic n e m => some ⟨.traffic, [.int64 e, .int64 m], n⟩
  | .status n v => some ⟨.engineThroughput, [.float64 v], n⟩
  | .selected n => some ⟨.selectedEngine, [], n⟩
  | .add .. | .delete .. => none

end Gosstrak
