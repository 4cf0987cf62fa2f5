import Verif.Spec.Damage
import Verif.Proofs.Gob
import Mathlib.Tactic.IntervalCases

namespace Gosstrak

theorem length_listEntries (es : List (Str × Tok)) : (listEntries es).length = 2 * es.length := by
  unfold listEntries
  induction es with
  | nil => rfl
  | cons e es ih => rw [List.flatMap_cons, List.length_append, ih, List.length_cons]; simp; omega

/-- what the loop has decoded -/
def decodedEntries (es : List (Str × Tok)) : List (Option FilterObject × Str) := es.map fun e => (e.2.asFilter, e.1)

theorem listLoop_entries : ∀ (es : List (Str × Tok)) (old : List (Option FilterObject × Str)) (err : Bool)
    (rest : List Tok), unmarshalListLoop es.length old err (listEntries es ++ rest) =
      (old ++ decodedEntries es, (es.getLast?.map fun e => e.2.asFilter.isNone).getD err)
  | [], old, err, rest => by simp [unmarshalListLoop, decodedEntries]
  | (u, t) :: es, old, err, rest => by
    have e : listEntries ((u, t) :: es) ++ rest = .str u :: t :: (listEntries es ++ rest) := rfl
    rw [e, List.length_cons, unmarshalListLoop]
    have e2 : gobFilter (t :: (listEntries es ++ rest)) = (t.asFilter, listEntries es ++ rest) := by
      cases t <;> rfl
    simp only [gobStr, e2]
    rw [listLoop_entries es]
    simp only [decodedEntries, List.map_cons, List.append_assoc, List.singleton_append, Prod.mk.injEq, true_and]
    cases es with
    | nil => rfl
    | cons e' es => rw [List.getLast?_cons_cons]; simp [List.getLast?_cons]

/-- what the loop makes of any stream -/
theorem listLoop_any : ∀ (n : Nat) (old : List (Option FilterObject × Str)) (err : Bool) (d : List Tok),
    (∃ es rest, d = listEntries es ++ rest ∧ es.length = n) ∨
    ((unmarshalListLoop n old err d).2 = true ∧ ∃ es, es.length < n ∧ listEntries es <+: d ∧
      ((unmarshalListLoop n old err d).1 = old ++ decodedEntries es ∨
        ∃ u, d = listEntries es ++ [.str u] ∧
          (unmarshalListLoop n old err d).1 = old ++ decodedEntries es ++ [(none, u)]))
  | 0, old, err, d => Or.inl ⟨[], d, rfl, rfl⟩
  | n + 1, old, err, d => by
    match d with
    | [] => exact Or.inr ⟨rfl, [], by simp, by simp [listEntries], Or.inl (by simp [unmarshalListLoop, gobStr, decodedEntries])⟩
    | .str u :: [] =>
      right
      have e : unmarshalListLoop (n + 1) old err [.str u] = unmarshalListLoop n (old ++ [(none, u)]) true [] := by
        rw [unmarshalListLoop]; rfl
      rw [e]
      have e2 : unmarshalListLoop n (old ++ [(none, u)]) true [] = (old ++ [(none, u)], true) := by
        cases n with
        | zero => rfl
        | succ n => rfl
      rw [e2]
      exact ⟨rfl, [], by simp, by simp [listEntries], Or.inr ⟨u, rfl, by simp [decodedEntries]⟩⟩
    | .str u :: t :: d =>
      have e : unmarshalListLoop (n + 1) old err (.str u :: t :: d) =
          unmarshalListLoop n (old ++ [(t.asFilter, u)]) t.asFilter.isNone d := by
        rw [unmarshalListLoop]
        cases t <;> rfl
      rw [e]
      rcases listLoop_any n (old ++ [(t.asFilter, u)]) t.asFilter.isNone d with ⟨es, rest, h1, h2⟩ | ⟨h1, es, h2, h3, h4⟩
      · exact Or.inl ⟨(u, t) :: es, rest, by rw [h1]; rfl, by simp [h2]⟩
      · refine Or.inr ⟨h1, (u, t) :: es, by simpa using h2, ?_, ?_⟩
        · obtain ⟨r, rfl⟩ := h3
          exact ⟨r, rfl⟩
        · rcases h4 with h4 | ⟨u', h4, h5⟩
          · exact Or.inl (by rw [h4]; simp [decodedEntries])
          · exact Or.inr ⟨u', by rw [h4]; rfl, by rw [h5]; simp [decodedEntries]⟩
    | .int _ :: d | .bool _ :: d | .filter _ :: d | .bin _ :: d | .map _ :: d =>
      exact Or.inr ⟨rfl, [], by simp, by simp [listEntries], Or.inl (by simp [unmarshalListLoop, gobStr, decodedEntries])⟩

/-! ### Subscriptions -/

/-- what is stored -/
def storeEntries (old : Subs) (es : List (Str × List Str)) : Subs := es.foldl (fun s e => mapSet s e.1 e.2) old

theorem subsLoop_entries {es : List (Str × List Str)} {d : List Tok} (h : SubsEntries es d) (old : Subs)
    (rest : List Tok) : unmarshalSubsLoop es.length old (d ++ rest) = (storeEntries old es, false) := by
  induction h generalizing old with
  | nil => rfl
  | @cons es d k m vs hm h ih =>
    rw [List.length_cons, List.cons_append, List.cons_append, unmarshalSubsLoop]
    simp only [gobStr, gobInt]
    rw [hm, List.append_assoc, unmarshalDests_map vs [] _]
    exact ih _

theorem dests_any : ∀ (n : Nat) (acc : List Str) (d : List Tok),
    (∃ vs rest, d = vs.map .str ++ rest ∧ vs.length = n ∧ unmarshalDests n acc d = some (acc ++ vs, rest)) ∨
    unmarshalDests n acc d = none
  | 0, acc, d => Or.inl ⟨[], d, rfl, rfl, by simp [unmarshalDests]⟩
  | n + 1, acc, d => by
    match d with
    | [] => exact Or.inr rfl
    | .str s :: d =>
      have e : unmarshalDests (n + 1) acc (.str s :: d) = unmarshalDests n (acc ++ [s]) d := by
        rw [unmarshalDests]; rfl
      rw [e]
      rcases dests_any n (acc ++ [s]) d with ⟨vs, rest, h1, h2, h3⟩ | h
      · exact Or.inl ⟨s :: vs, rest, by rw [h1]; rfl, by simp [h2], by rw [h3]; simp⟩
      · exact Or.inr h
    | .int _ :: d | .bool _ :: d | .filter _ :: d | .bin _ :: d | .map _ :: d => exact Or.inr rfl

theorem subsLoop_any : ∀ (n : Nat) (old : Subs) (d : List Tok),
    (∃ es d' rest, d = d' ++ rest ∧ SubsEntries es d' ∧ es.length = n) ∨
    ∃ es d', d' <+: d ∧ SubsEntries es d' ∧ es.length < n ∧ unmarshalSubsLoop n old d = (storeEntries old es, true)
  | 0, old, d => Or.inl ⟨[], [], d, rfl, .nil, rfl⟩
  | n + 1, old, d => by
    have stop : unmarshalSubsLoop (n + 1) old d = (old, true) → ∃ es d', d' <+: d ∧ SubsEntries es d' ∧
        es.length < n + 1 ∧ unmarshalSubsLoop (n + 1) old d = (storeEntries old es, true) :=
      fun h => ⟨[], [], List.nil_prefix, .nil, by simp, h⟩
    match d with
    | [] => exact Or.inr (stop rfl)
    | .str k :: [] => exact Or.inr (stop rfl)
    | .str k :: .int m :: d =>
      have e : unmarshalSubsLoop (n + 1) old (.str k :: .int m :: d) =
          match unmarshalDests m.toNat [] d with
          | none => (old, true)
          | some (dests, d) => unmarshalSubsLoop n (mapSet old k dests) d := by
        rw [unmarshalSubsLoop]; rfl
      rcases dests_any m.toNat [] d with ⟨vs, rest, rfl, h2, h3⟩ | h
      · rw [h3] at e
        dsimp only [List.nil_append] at e
        rcases subsLoop_any n (mapSet old k vs) rest with ⟨es, d', r, rfl, g1, g2⟩ | ⟨es, d', ⟨r, rfl⟩, g2, g3, g4⟩
        · refine Or.inl ⟨(k, vs) :: es, _, r, ?_, .cons k m vs h2.symm g1, by simp [g2]⟩
          simp
        · refine Or.inr ⟨(k, vs) :: es, _, ⟨r, ?_⟩, .cons k m vs h2.symm g2, by simpa using g3, ?_⟩
          · simp
          · rw [e, g4]; rfl
      · rw [h] at e
        exact Or.inr (stop e)
    | .str k :: .str _ :: d | .str k :: .bool _ :: d | .str k :: .filter _ :: d | .str k :: .bin _ :: d
    | .str k :: .map _ :: d => exact Or.inr (stop rfl)
    | .int _ :: d | .bool _ :: d | .filter _ :: d | .bin _ :: d | .map _ :: d => exact Or.inr (stop rfl)

theorem map_str_split {vs vs' : List Str} (hl : vs.length = vs'.length) {a b : List Tok}
    (h : vs.map Tok.str ++ a = vs'.map Tok.str ++ b) : vs = vs' ∧ a = b := by
  have := List.append_inj h (by simpa using hl)
  refine ⟨?_, this.2⟩
  exact (List.map_inj_right (fun a b h => by cases h; rfl)).mp this.1

theorem subsEntries_unique {es es' : List (Str × List Str)} {d d' r r' : List Tok} (h : SubsEntries es d)
    (h' : SubsEntries es' d') (hl : es.length = es'.length) (he : d ++ r = d' ++ r') : es = es' ∧ d = d' ∧ r = r' := by
  induction h generalizing es' d' with
  | nil =>
    cases h' with
    | nil => exact ⟨rfl, rfl, he⟩
    | cons => cases hl
  | cons k m vs hm h ih =>
    cases h' with
    | nil => cases hl
    | cons k' m' vs' hm' h' =>
      simp only [List.cons_append, List.cons.injEq, Tok.str.injEq, Tok.int.injEq] at he
      obtain ⟨rfl, rfl, he⟩ := he
      rw [List.append_assoc, List.append_assoc] at he
      obtain ⟨rfl, he2⟩ := map_str_split (hm.symm.trans hm') he
      obtain ⟨rfl, rfl, rfl⟩ := ih h' (by simpa using hl) he2
      exact ⟨rfl, rfl, rfl⟩

theorem marshal_entries (sub : Subs) : ∀ ks : List Str, SubsEntries (ks.map fun k => (k, (mapGet sub k).getD []))
    (ks.flatMap fun fs => [Tok.str fs, Tok.int ((mapGet sub fs).getD []).length] ++
      ((mapGet sub fs).getD []).map Tok.str)
  | [] => .nil
  | k :: ks => .cons k _ _ (by simp) (marshal_entries sub ks)

/-! ### Trees -/

theorem cut_take {d full : List Tok} (h : CutOff d full) : ∃ k, k < full.length ∧ d = full.take k := by
  obtain ⟨more, h1, rfl⟩ := h
  refine ⟨d.length, ?_, by simp⟩
  have := List.length_pos_iff.mpr h1
  simp; omega

theorem snode_cut (t : SNode) {d : List Tok} (h : CutOff d t.marshal) : (unmarshalSNode d).2 = true := by
  obtain ⟨k, hk, rfl⟩ := cut_take h
  cases t with
  | nil => simp [SNode.marshal] at hk
  | node uri f m mm =>
    revert hk
    by_cases h1 : m = .nil <;> by_cases h2 : mm = .nil <;> cases f <;> rw [SNode.marshal] <;>
      simp only [h1, h2, ne_eq, not_true, not_false_eq_true, decide_true, decide_false, if_true, if_false,
        List.cons_append, List.nil_append, Option.isSome, List.length_cons, List.length_nil] <;>
      intro hk <;> interval_cases k <;> rw [unmarshalSNode] <;> rfl

theorem pnode_cut (t : PNode) (hf : t.Full) {d : List Tok} (h : CutOff d t.marshal) : (unmarshalPNode d).2 = true := by
  obtain ⟨k, hk, rfl⟩ := cut_take h
  cases t with
  | nil => simp [PNode.marshal] at hk
  | node uri f one zero =>
    have hi := hf.1
    revert hk
    rw [PNode.marshal]
    by_cases h1 : one = .nil
    · have h2 := hi.mp h1
      simp only [h1, h2, ne_eq, not_true, decide_false, if_false, List.cons_append, List.nil_append, List.length_cons,
        List.length_nil]
      intro hk
      interval_cases k <;> rw [unmarshalPNode] <;> rfl
    · have h2 : zero ≠ .nil := fun h2 => h1 (hi.mpr h2)
      simp only [h1, h2, ne_eq, not_false_eq_true, decide_true, if_true, List.cons_append, List.nil_append,
        List.length_cons, List.length_nil]
      intro hk
      interval_cases k <;> rw [unmarshalPNode] <;> rfl

/-! ### Partial subscriptions -/

theorem marshalBSub_append (s t : List (Str × PSub)) : marshalBSub (s ++ t) = marshalBSub s ++ marshalBSub t := by
  induction s with
  | nil => rfl
  | cons e s ih => rw [List.cons_append, marshalBSub, marshalBSub, ih]; rfl

mutual
theorem psub_accepted : ∀ (p : PSub), (unmarshalPSub p.marshal).2 = false
  | .mk o u s => by
    rw [PSub.marshal, unmarshalPSub]
    simp only [gobInt, gobStr, gobMap]
    obtain ⟨t, h⟩ := bsub_before s [] []
    rw [List.append_nil] at h
    rw [h, unmarshalBSub]
theorem bsub_before : ∀ (s t : List (Str × PSub)) (m : List (Str × List Tok)),
    ∃ t', unmarshalBSub (marshalBSub s ++ m) t = unmarshalBSub m t'
  | [], t, m => ⟨t, rfl⟩
  | (k, p) :: s, t, m => by
    rw [marshalBSub, List.cons_append, unmarshalBSub, psub_accepted p, if_neg (by decide)]
    exact bsub_before s _ m
end

theorem bsub_before_maps : ∀ (s t : List (Str × PSub)) (m : List (Str × List Tok)), BSubMaps s → IsMap (t ++ s) →
    unmarshalBSub (marshalBSub s ++ m) t = unmarshalBSub m (t ++ s)
  | [], t, m, _, _ => by rw [List.append_nil]; rfl
  | (k, p) :: s, t, m, h, hm => by
    unfold BSubMaps at h
    rw [marshalBSub, List.cons_append, unmarshalBSub, unmarshalPSub_marshal p h.1]
    simp only [Bool.false_eq_true, if_false]
    rw [mapSet_new]
    · rw [bsub_before_maps s _ m h.2 (by simpa using hm)]
      simp
    · intro hk
      unfold IsMap at hm
      rw [List.map_append, List.nodup_append] at hm
      exact hm.2.2 k hk k (by simp) rfl

theorem psub_cut_here (p : PSub) {d : List Tok} (h : CutOff d p.marshal) : (unmarshalPSub d).2 = true := by
  obtain ⟨k, hk, rfl⟩ := cut_take h
  cases p with
  | mk o u s =>
    revert hk
    rw [PSub.marshal]
    simp only [List.length_cons, List.length_nil]
    intro hk
    interval_cases k <;> rw [unmarshalPSub] <;> rfl

theorem bsubMaps_append (s t : List (Str × PSub)) : BSubMaps (s ++ t) ↔ BSubMaps s ∧ BSubMaps t := by
  induction s with
  | nil => simp [BSubMaps]
  | cons e s ih => obtain ⟨k, p⟩ := e; rw [List.cons_append, BSubMaps, BSubMaps, ih, and_assoc]

/-! ### LegacyEngine -/

theorem legacyInner_end : ∀ (l : List Str) (uris : List Str) (rest : List Tok) (err : Bool), l ≠ [] →
    (unmarshalLegacyInner l.length uris err (l.map .str ++ rest)).2.1 = false
  | [], _, _, _, h => absurd rfl h
  | s :: l, uris, rest, err, _ => by
    simp only [List.length_cons, List.map_cons, List.cons_append, unmarshalLegacyInner, gobStr,
      Option.isNone_some, Option.getD_some]
    rw [legacyInner_map l _ rest]

end Gosstrak
