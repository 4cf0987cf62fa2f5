import Verif.Model.Stat

/-! What the statistics messages mean, independent of the code that turns them into points. -/
namespace Gosstrak

/-- the number an engine is recorded as -/
def EngineNumber (n : Str) (k : Int) : Prop :=
  (n = "List".toList ∧ k = 1) ∨ (n = "PatriciaTrie".toList ∧ k = 2) ∨ (n = "SplayTree".toList ∧ k = 3) ∨
    (n ≠ "List".toList ∧ n ≠ "PatriciaTrie".toList ∧ n ≠ "SplayTree".toList ∧ k = 0)

instance (n : Str) (k : Int) : Decidable (EngineNumber n k) := by unfold EngineNumber; infer_instance

/-- a message as `gosstrak-fc` is meant to send them, and its measurement -/
inductive Measures {F : Type} (percent : Percent F) : StatMessage F → Point F → Prop where
  | quiet (n : Str) (m : Int) : Measures percent ⟨.traffic, [.int64 0, .int64 m], n⟩
      ⟨"traffic".toList, [("engine".toList, n)],
        [("incoming_events".toList, .int64 0), ("matched_events".toList, .int64 m)]⟩
  | traffic (n : Str) (e m : Int) (h : e ≠ 0) : Measures percent ⟨.traffic, [.int64 e, .int64 m], n⟩
      ⟨"traffic".toList, [("engine".toList, n)],
        [("incoming_events".toList, .int64 e), ("matched_events".toList, .int64 m),
          ("matching_probability".toList, .float64 (percent m e))]⟩
  | throughput (n : Str) (v : F) : Measures percent ⟨.engineThroughput, [.float64 v], n⟩
      ⟨"throughput".toList, [("engine".toList, n)], [("event_per_us".toList, .float64 v)]⟩
  | selected (n : Str) (k : Int) (h : EngineNumber n k) : Measures percent ⟨.selectedEngine, [], n⟩
      ⟨"engine".toList, [], [("selected".toList, .int k)]⟩

/-- message by message -/
inductive MeasuresAll {F : Type} (percent : Percent F) : List (StatMessage F) → List (Point F) → Prop where
  | nil : MeasuresAll percent [] []
  | cons {m p ms ps} (h : Measures percent m p) (t : MeasuresAll percent ms ps) :
      MeasuresAll percent (m :: ms) (p :: ps)

/-- messages that are logged nowhere: traffic whose counters are not of type `int64` -/
def Untyped {F : Type} (m : StatMessage F) : Prop :=
  m.type = .traffic ∧ ∃ a b rest, m.value = a :: b :: rest ∧
    ((∀ n, a ≠ .int64 n) ∨ (∀ n, b ≠ .int64 n))

/-- messages with too few values -/
def TooFew {F : Type} (m : StatMessage F) : Prop :=
  (m.type = .traffic ∧ (m.value = [] ∨ ∃ n, m.value = [.int64 n])) ∨ (m.type = .engineThroughput ∧ m.value = [])

/-- the measurement owed for a message to the main program -/
inductive Records {F : Type} (percent : Percent F) : Msg F → Point F → Prop where
  | quiet (n : Str) (m : Nat) : Records percent (.traffic n 0 m)
      ⟨"traffic".toList, [("engine".toList, n)],
        [("incoming_events".toList, .int64 0), ("matched_events".toList, .int64 m)]⟩
  | traffic (n : Str) (e m : Nat) (h : e ≠ 0) : Records percent (.traffic n e m)
      ⟨"traffic".toList, [("engine".toList, n)],
        [("incoming_events".toList, .int64 e), ("matched_events".toList, .int64 m),
          ("matching_probability".toList, .float64 (percent m e))]⟩
  | throughput (n : Str) (v : F) : Records percent (.status n v)
      ⟨"throughput".toList, [("engine".toList, n)], [("event_per_us".toList, .float64 v)]⟩
  | selected (n : Str) (k : Int) (h : EngineNumber n k) : Records percent (.selected n)
      ⟨"engine".toList, [], [("selected".toList, .int k)]⟩

end Gosstrak
