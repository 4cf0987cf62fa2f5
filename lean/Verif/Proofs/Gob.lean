import Verif.Spec.Gob
import Verif.Proofs.Subs

namespace Gosstrak

theorem unmarshalSNode_marshal (t : SNode) (h : t ≠ .nil) : unmarshalSNode t.marshal = (t, false) := by
  induction t with
  | nil => exact absurd rfl h
  | node uri f m mm ihm ihmm =>
    clear h
    have e : unmarshalSNode (SNode.node uri f m mm).marshal =
        (.node uri f (if m = .nil then .nil else (unmarshalSNode m.marshal).1)
          (if mm = .nil then .nil else (unmarshalSNode mm.marshal).1),
         if mm = .nil then false else (unmarshalSNode mm.marshal).2) := by
      by_cases h1 : m = .nil <;> by_cases h2 : mm = .nil <;> cases f <;> rw [SNode.marshal] <;>
        simp only [h1, h2, ne_eq, not_true, not_false_eq_true, decide_true, decide_false, if_true, if_false,
          List.cons_append, List.nil_append, Option.isSome] <;>
        rw [unmarshalSNode] <;> rfl
    rw [e]
    by_cases h1 : m = .nil <;> by_cases h2 : mm = .nil <;> simp [h1, h2, ihm, ihmm]

theorem unmarshalPNode_marshal (uri : Str) (f : FilterObject) (one zero : PNode) :
    unmarshalPNode (PNode.node uri f one zero).marshal =
        (.node uri (some f) (if one = .nil then .nil else (unmarshalPNode one.marshal).1)
          (if one = .nil ∨ zero = .nil then .nil else (unmarshalPNode zero.marshal).1),
         if one = .nil then false else if zero = .nil then true else (unmarshalPNode zero.marshal).2) := by
  rw [PNode.marshal]
  by_cases h1 : one = .nil <;> by_cases h2 : zero = .nil <;>
    simp only [h1, h2, ne_eq, not_true, not_false_eq_true, decide_true, decide_false, if_true, if_false,
      List.cons_append, List.nil_append, true_or, or_true, or_self] <;>
    rw [unmarshalPNode] <;> rfl

theorem unmarshalPNode_fst (t : PNode) (h : t ≠ .nil) : (unmarshalPNode t.marshal).1 = t.prune.raw := by
  induction t with
  | nil => exact absurd rfl h
  | node uri f one zero ih1 ih0 =>
    rw [unmarshalPNode_marshal]
    simp only [PNode.prune, PNode.raw]
    congr 1
    · by_cases h1 : one = .nil
      · simp [h1, PNode.prune, PNode.raw]
      · rw [if_neg h1, ih1 h1]
    · by_cases h1 : one = .nil
      · simp [h1, PNode.raw]
      · by_cases h2 : zero = .nil
        · simp [h1, h2, PNode.prune, PNode.raw]
        · rw [if_neg (by simp [h1, h2]), if_neg h1, ih0 h2]

theorem unmarshalPNode_snd (t : PNode) (h : t ≠ .nil) :
    (unmarshalPNode t.marshal).2 = true ↔ t.EndsLoneOne := by
  induction t with
  | nil => exact absurd rfl h
  | node uri f one zero ih1 ih0 =>
    rw [unmarshalPNode_marshal]
    by_cases h1 : one = .nil
    · simp only [h1, if_true, Bool.false_eq_true, false_iff]
      intro h
      cases h with
      | here => contradiction
      | down => contradiction
    · by_cases h2 : zero = .nil
      · simp only [h1, h2, if_true, if_false, true_iff]
        exact .here _ _ _ h1
      · simp only [h1, h2, if_false]
        rw [ih0 h2]
        constructor
        · exact .down _ _ _ _ h1
        · intro h
          cases h with
          | here => exact absurd rfl h2
          | down _ _ _ _ _ h => exact h

theorem raw_injective : ∀ {s t : PNode}, s.raw = t.raw → s = t
  | .nil, .nil, _ => rfl
  | .nil, .node .., h => by simp [PNode.raw] at h
  | .node .., .nil, h => by simp [PNode.raw] at h
  | .node .., .node .., h => by
    simp only [PNode.raw, PRaw.node.injEq, Option.some.injEq] at h
    obtain ⟨rfl, rfl, h1, h2⟩ := h
    rw [raw_injective h1, raw_injective h2]

theorem prune_eq_iff (t : PNode) : t.prune = t ↔ ¬ t.HasLoneZero := by
  induction t with
  | nil => simp [PNode.prune, PNode.HasLoneZero]
  | node u f one zero ih1 ih0 =>
    simp only [PNode.prune, PNode.HasLoneZero, PNode.node.injEq, true_and, not_or, ih1]
    by_cases h1 : one = .nil
    · simp only [h1, if_true, PNode.HasLoneZero, not_false_eq_true, true_and]
      by_cases h2 : zero = .nil
      · simp [h2, PNode.HasLoneZero]
      · simp [h2, eq_comm]
    · simp only [h1, if_false, false_and, not_false_eq_true, true_and, ih0]

theorem full_not_lone (t : PNode) (h : t.Full) : ¬ t.HasLoneZero := by
  induction t with
  | nil => simp [PNode.HasLoneZero]
  | node u f one zero ih1 ih0 =>
    obtain ⟨h0, h1, h2⟩ := h
    rintro (⟨a, b⟩ | h | h)
    · exact b (h0.mp a)
    · exact ih1 h1 h
    · exact ih0 h2 h

theorem full_not_ends (t : PNode) (h : t.Full) : ¬ t.EndsLoneOne := by
  intro he
  induction he with
  | here u f one hne => exact hne (h.1.mpr rfl)
  | down u f one zero hne _ ih => exact ih h.2.2

theorem unmarshalListLoop_marshal : ∀ (l : ListEngine) (old : List (Option FilterObject × Str)) (rest : List Tok),
    unmarshalListLoop l.length old false
      ((l.flatMap fun em => [Tok.str em.2, Tok.filter em.1]) ++ rest) =
      (old ++ l.map fun em => (some em.1, em.2), false)
  | [], old, rest => by simp [unmarshalListLoop]
  | em :: l, old, rest => by
    simp only [List.length_cons, List.flatMap_cons, List.cons_append, List.nil_append, unmarshalListLoop,
      gobStr, gobFilter, Option.isNone_some]
    rw [unmarshalListLoop_marshal l _ rest]
    simp

theorem unmarshalDests_map : ∀ (l acc : List Str) (rest : List Tok),
    unmarshalDests l.length acc (l.map .str ++ rest) = some (acc ++ l, rest)
  | [], acc, rest => by simp [unmarshalDests]
  | s :: l, acc, rest => by
    simp only [List.length_cons, List.map_cons, List.cons_append, unmarshalDests, gobStr]
    rw [unmarshalDests_map l _ rest]
    simp

theorem unmarshalSubsLoop_marshal (sub : Subs) : ∀ (ks : List Str) (old : Subs),
    unmarshalSubsLoop ks.length old (ks.flatMap fun fs =>
      [Tok.str fs, Tok.int ((mapGet sub fs).getD []).length] ++ ((mapGet sub fs).getD []).map Tok.str) =
      (ks.foldl (fun s k => mapSet s k ((mapGet sub k).getD [])) old, false)
  | [], old => rfl
  | k :: ks, old => by
    simp only [List.length_cons, List.flatMap_cons, List.cons_append, List.nil_append, unmarshalSubsLoop,
      gobStr, gobInt, Int.toNat_natCast]
    rw [unmarshalDests_map _ [] _]
    simp only [List.nil_append, List.foldl_cons]
    exact unmarshalSubsLoop_marshal sub ks _

theorem foldl_mapSet_get {α : Type} (val : Str → α) : ∀ (ks : List Str) (old : List (Str × α)) (q : Str),
    mapGet (ks.foldl (fun s k => mapSet s k (val k)) old) q =
      if q ∈ ks then some (val q) else mapGet old q
  | [], old, q => by simp
  | k :: ks, old, q => by
    rw [List.foldl_cons, foldl_mapSet_get val ks, mapGet_mapSet]
    by_cases h1 : q ∈ ks
    · simp [h1]
    · by_cases h2 : k = q
      · simp [h2]
      · simp [h1, h2, eq_comm (a := q)]

theorem foldl_mapSet_isMap {α : Type} (val : Str → α) : ∀ (ks : List Str) (old : List (Str × α)),
    IsMap old → IsMap (ks.foldl (fun s k => mapSet s k (val k)) old)
  | [], _, h => h
  | _ :: ks, _, h => foldl_mapSet_isMap val ks _ (isMap_mapSet h _ _)

theorem mapSet_new {α : Type} : ∀ (m : List (Str × α)) (k : Str) (v : α), k ∉ m.map Prod.fst →
    mapSet m k v = m ++ [(k, v)]
  | [], _, _, _ => rfl
  | (k', v') :: m, k, v, h => by
    simp only [List.map_cons, List.mem_cons, not_or] at h
    unfold mapSet
    rw [if_neg (fun e => h.1 e.symm), mapSet_new m k v h.2]
    rfl

mutual
theorem unmarshalPSub_marshal : ∀ (p : PSub), p.Maps → unmarshalPSub p.marshal = (p, false)
  | .mk o u s, h => by
    rw [PSub.marshal, unmarshalPSub]
    simp only [gobInt, gobStr, gobMap, Int.toNat_natCast]
    unfold PSub.Maps at h
    rw [unmarshalBSub_marshal s [] h.2 (by simpa [IsMap] using h.1)]
    rfl
theorem unmarshalBSub_marshal : ∀ (s t : List (Str × PSub)), BSubMaps s →
    IsMap (t ++ s) → unmarshalBSub (marshalBSub s) t = (t ++ s, false)
  | [], t, _, _ => by rw [marshalBSub, unmarshalBSub]; simp
  | (k, p) :: s, t, h, hm => by
    unfold BSubMaps at h
    rw [marshalBSub, unmarshalBSub]
    rw [unmarshalPSub_marshal p h.1]
    simp only [Bool.false_eq_true, if_false]
    rw [mapSet_new]
    · rw [unmarshalBSub_marshal s _ h.2 (by simpa using hm)]
      simp
    · intro hk
      unfold IsMap at hm
      rw [List.map_append, List.nodup_append] at hm
      exact hm.2.2 k hk k (by simp) rfl
end

theorem unmarshalLegacyLoop_filters (size : Nat) : ∀ (n : Nat) (filters : Subs) (err : Bool) (d : List Tok),
    (unmarshalLegacyLoop size n filters err d).1 = filters
  | 0, _, _, _ => rfl
  | n + 1, filters, err, d => by
    unfold unmarshalLegacyLoop
    split
    · rfl
    · split
      · rfl
      · exact unmarshalLegacyLoop_filters size n filters _ _

theorem length_gobStr (d : List Tok) : (gobStr d).2.length = d.length - 1 := by
  unfold gobStr; split <;> simp

theorem gobStr_some {d : List Tok} {s : Str} (h : (gobStr d).1 = some s) : 1 ≤ d.length := by
  unfold gobStr at h; split at h <;> simp at h ⊢

theorem gobInt_some {d : List Tok} {n : Int} (h : (gobInt d).1 = some n) :
    d.length = (gobInt d).2.length + 1 := by
  unfold gobInt at h ⊢; split at h <;> simp at h ⊢

theorem length_legacyInner : ∀ (n : Nat) (uris : List Str) (err : Bool) (d : List Tok),
    (unmarshalLegacyInner n uris err d).2.2.length = d.length - n
  | 0, _, _, _ => by simp [unmarshalLegacyInner]
  | n + 1, uris, err, d => by
    unfold unmarshalLegacyInner
    dsimp only
    rw [length_legacyInner n, length_gobStr]
    omega

theorem legacyInner_ok : ∀ (n : Nat) (uris : List Str) (err : Bool) (d : List Tok), n ≠ 0 →
    (unmarshalLegacyInner n uris err d).2.1 = false → n ≤ d.length
  | 0, _, _, _, h, _ => absurd rfl h
  | n + 1, uris, err, d, _, ho => by
    unfold unmarshalLegacyInner at ho
    dsimp only at ho
    by_cases hn : n = 0
    · subst hn
      unfold unmarshalLegacyInner at ho
      cases hs : (gobStr d).1 with
      | none => simp [hs] at ho
      | some s => exact gobStr_some hs
    · have := legacyInner_ok n _ _ _ hn ho
      rw [length_gobStr] at this
      omega

theorem legacyLoop_ok (size : Nat) (hsize : size ≠ 0) : ∀ (n : Nat) (filters : Subs) (err : Bool) (d : List Tok),
    n ≠ 0 → (unmarshalLegacyLoop size n filters err d).2 = false → n * (size + 2) ≤ d.length
  | 0, _, _, _, h, _ => absurd rfl h
  | n + 1, filters, err, d, _, ho => by
    unfold unmarshalLegacyLoop at ho
    split at ho
    · simp at ho
    · rename_i s d1 h1
      split at ho
      · simp at ho
      · rename_i k d2 h2
        have e1 : d.length = d1.length + 1 := by
          have a := gobStr_some (d := d) (by rw [h1])
          have b := length_gobStr d
          rw [h1] at b
          simp only at b
          omega
        have e2 := gobInt_some (d := d1) (by rw [h2])
        rw [h2] at e2
        simp only at e2
        dsimp only at ho
        by_cases hn : n = 0
        · subst hn
          unfold unmarshalLegacyLoop at ho
          have := legacyInner_ok _ _ _ _ hsize ho
          omega
        · have := legacyLoop_ok size hsize n _ _ _ hn ho
          rw [length_legacyInner] at this
          have h3 : 1 ≤ n * (size + 2) := Nat.mul_pos (by omega) (by omega)
          have : (n + 1) * (size + 2) = n * (size + 2) + size + 2 := by
            rw [Nat.succ_mul]; omega
          omega

theorem legacyInner_map : ∀ (l : List Str) (uris : List Str) (rest : List Tok),
    unmarshalLegacyInner l.length uris false (l.map .str ++ rest) = (uris ++ l, false, rest)
  | [], uris, rest => by simp [unmarshalLegacyInner]
  | s :: l, uris, rest => by
    simp only [List.length_cons, List.map_cons, List.cons_append, unmarshalLegacyInner, gobStr,
      Option.isNone_some, Option.getD_some]
    rw [legacyInner_map l _ rest]
    simp

theorem legacyLoop_equal (sub : Subs) (size : Nat) : ∀ (ks : List Str) (old : Subs),
    (∀ k ∈ ks, ((mapGet sub k).getD []).length = size) →
    unmarshalLegacyLoop size ks.length old false (ks.flatMap fun fs =>
      [Tok.str fs, Tok.int ((mapGet sub fs).getD []).length] ++ ((mapGet sub fs).getD []).map Tok.str) =
      (old, false)
  | [], _, _ => rfl
  | k :: ks, old, h => by
    simp only [List.length_cons, List.flatMap_cons, List.cons_append, List.nil_append, unmarshalLegacyLoop,
      gobStr, gobInt]
    have e := legacyInner_map ((mapGet sub k).getD []) []
    rw [h k (by simp)] at e
    rw [e]
    exact legacyLoop_equal sub size ks old (fun k' hk' => h k' (by simp [hk']))

theorem length_legacyTokens (sub : Subs) : ∀ (ks : List Str),
    (ks.flatMap fun fs => [Tok.str fs, Tok.int ((mapGet sub fs).getD []).length] ++
      ((mapGet sub fs).getD []).map Tok.str).length =
      2 * ks.length + (ks.map fun k => ((mapGet sub k).getD []).length).sum
  | [] => rfl
  | k :: ks => by
    rw [List.flatMap_cons, List.length_append, length_legacyTokens sub ks]
    simp
    omega

theorem length_sortStrings (l : List Str) : (sortStrings l).length = l.length :=
  (sortStrings_perm l).length_eq

theorem sum_keys {α : Type} (g : α → Nat) (z : α) (m : List (Str × α)) (hm : IsMap m) :
    ((mapKeys m).map fun k => g ((mapGet m k).getD z)).sum = (m.map fun e => g e.2).sum := by
  unfold mapKeys
  rw [((sortStrings_perm _).map _).sum_nat, List.map_map]
  congr 1
  refine List.map_congr_left fun e he => ?_
  show g ((mapGet m e.1).getD z) = g e.2
  rw [mapGet_of_mem hm (q := e.1) (v := e.2) he]
  rfl

end Gosstrak
