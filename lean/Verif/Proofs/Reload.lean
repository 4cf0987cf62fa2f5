import Verif.Spec.Reload
import Verif.Proofs.Gob
import Verif.Proofs.Filter

namespace Gosstrak

/-- the filter after loading -/
def overFilter : Option FilterObject → Option FilterObject → Option FilterObject
  | old, none => old
  | none, some f => some f
  | some o, some f => some (o.over f)

theorem overFilter_loaded (old new : Option FilterObject) : Loaded old new (overFilter old new) := by
  match old, new with
  | _, none => exact .missing _
  | none, some f => exact .fresh f
  | some o, some f =>
    refine .over o f _ ?_ ?_ ?_ ?_ ?_ ?_ ?_ <;> simp only [FilterObject.over] <;> split <;> simp_all

theorem loaded_unique {old new got : Option FilterObject} (h : Loaded old new got) : got = overFilter old new := by
  cases h with
  | fresh f => rfl
  | missing => rfl
  | over o f g h1 h2 h3 h4 h5 h6 h7 =>
    have : g = o.over f := by
      obtain ⟨a1, a2, a3, a4, a5, a6, a7⟩ := g
      simp only [FilterObject.over, FilterObject.mk.injEq]
      refine ⟨?_, ?_, ?_, ?_, ?_, ?_, ?_⟩ <;> split <;> simp_all
    rw [this]; rfl

theorem over_over (o f : FilterObject) : (o.over f).over f = o.over f := by
  simp only [FilterObject.over, FilterObject.mk.injEq]
  refine ⟨?_, ?_, ?_, ?_, ?_, ?_, ?_⟩ <;> split <;> rfl

theorem over_self (f : FilterObject) : f.over f = f := by
  obtain ⟨a1, a2, a3, a4, a5, a6, a7⟩ := f
  simp only [FilterObject.over, FilterObject.mk.injEq]
  refine ⟨?_, ?_, ?_, ?_, ?_, ?_, ?_⟩ <;> split <;> rfl

theorem overFilter_overFilter (o f : Option FilterObject) : overFilter (overFilter o f) f = overFilter o f := by
  match o, f with
  | _, none => rfl
  | none, some f => simp [overFilter, over_self]
  | some o, some f => simp [overFilter, over_over]

theorem overFilter_self (f : Option FilterObject) : overFilter f f = f := by
  cases f <;> simp [overFilter, over_self]

theorem over_made {s s' : Str} (h : IsFilterStr s) (o o' : Nat) :
    (newFilter s' o').over (newFilter s o) = newFilter s o ↔ NothingLeft s o s' o' := by
  obtain ⟨h1, h2, h3, h4, h5, h6, h7, -⟩ := newFilter_spec h o
  have hp := filterBytes_pos (o % 8) s.length
  have b1 : (newFilter s o).byteFilter ≠ [] := by intro e; rw [e] at h6; simp at h6; omega
  have b2 : (newFilter s o).byteMask ≠ [] := by intro e; rw [e] at h7; simp at h7; omega
  have b3 : (newFilter s o).byteSize ≠ 0 := by omega
  have c4 : (newFilter s' o').byteOffset = o' / 8 := by
    simp only [newFilter]; rw [makeFilter]; dsimp only; split <;> rfl
  have e : (newFilter s o) = ⟨(newFilter s o).str, (newFilter s o).size, (newFilter s o).offset,
    (newFilter s o).byteFilter, (newFilter s o).byteMask, (newFilter s o).byteOffset, (newFilter s o).byteSize⟩ := rfl
  rw [FilterObject.over]
  rw [e]
  simp only [FilterObject.mk.injEq, if_neg b1, if_neg b2, if_neg b3, and_true, true_and]
  rw [h1, h2, h3, h4, c4, show (newFilter s' o').str = s' from rfl, show (newFilter s' o').size = s'.length from rfl,
    show (newFilter s' o').offset = o' from rfl]
  unfold NothingLeft
  constructor
  · rintro ⟨a, -, b, c⟩
    refine ⟨fun e => ?_, fun e => ?_, fun e => ?_⟩
    · simpa [e] using a
    · simpa [e] using b
    · rw [if_pos (by omega)] at c; omega
  · rintro ⟨a, b, c⟩
    refine ⟨?_, ?_, ?_, ?_⟩
    · split
      · rename_i e; rw [a e, e]
      · rfl
    · split
      · rename_i e
        have e' : s = [] := List.length_eq_zero_iff.mp e
        rw [a e', e']
      · rfl
    · split
      · rename_i e; rw [b e, e]
      · rfl
    · split
      · have := c (by omega); omega
      · rfl

/-! ### splay tree -/

theorem snode_place_ext : ∀ {s t : SNode}, (∀ p, s.place p = t.place p) → s = t
  | .nil, .nil, _ => rfl
  | .nil, .node .., h => by have := h []; simp [SNode.place] at this
  | .node .., .nil, h => by have := h []; simp [SNode.place] at this
  | .node u f m mm, .node u' f' m' mm', h => by
    have h0 := h []
    simp only [SNode.place, Option.some.injEq, Prod.mk.injEq] at h0
    obtain ⟨rfl, rfl⟩ := h0
    rw [snode_place_ext (s := m) (t := m') fun p => by simpa [SNode.place] using h (true :: p),
      snode_place_ext (s := mm) (t := mm') fun p => by simpa [SNode.place] using h (false :: p)]

/-- a saved tree loaded over another -/
def SNode.onto : SNode → SNode → SNode
  | _, .nil => .nil
  | old, .node u f m mm =>
    .node u (overFilter old.fields.2.1 f) (SNode.onto old.fields.2.2.1 m) (SNode.onto old.fields.2.2.2 mm)

theorem snodeOver_marshal (t : SNode) (h : t ≠ .nil) (old : SNode) :
    unmarshalSNodeOver old t.marshal = (old.onto t, false) := by
  induction t generalizing old with
  | nil => exact absurd rfl h
  | node uri f m mm ihm ihmm =>
    clear h
    obtain ⟨u0, f0, m0, mm0, hf⟩ : ∃ u0 f0 m0 mm0, old.fields = (u0, f0, m0, mm0) := ⟨_, _, _, _, rfl⟩
    have e : unmarshalSNodeOver old (SNode.node uri f m mm).marshal =
        (.node uri (overFilter f0 f) (if m = .nil then .nil else (unmarshalSNodeOver m0 m.marshal).1)
          (if mm = .nil then .nil else (unmarshalSNodeOver mm0 mm.marshal).1),
         if mm = .nil then false else (unmarshalSNodeOver mm0 mm.marshal).2) := by
      by_cases h1 : m = .nil <;> by_cases h2 : mm = .nil <;> cases f <;> cases f0 <;> rw [SNode.marshal] <;>
        simp only [h1, h2, ne_eq, not_true, not_false_eq_true, decide_true, decide_false, if_true, if_false,
          List.cons_append, List.nil_append, Option.isSome] <;>
        rw [unmarshalSNodeOver, hf] <;> rfl
    rw [e, SNode.onto, hf]
    by_cases h1 : m = .nil <;> by_cases h2 : mm = .nil <;> simp [h1, h2, ihm, ihmm, SNode.onto]

theorem fields_place (t : SNode) (p : List Bool) :
    t.fields.2.2.1.place p = t.place (true :: p) ∧ t.fields.2.2.2.place p = t.place (false :: p) := by
  cases t <;> simp [SNode.fields, SNode.place]

theorem fields_filter (t : SNode) : t.fields.2.1 = (t.place []).bind Prod.snd := by
  cases t <;> simp [SNode.fields, SNode.place]

theorem onto_place : ∀ (t old : SNode) (p : List Bool), (old.onto t).place p =
    (t.place p).map fun e => (e.1, overFilter ((old.place p).bind Prod.snd) e.2)
  | .nil, old, p => by simp [SNode.onto, SNode.place]
  | .node u f m mm, old, [] => by simp [SNode.onto, SNode.place, fields_filter]
  | .node u f m mm, old, true :: p => by
    rw [SNode.onto, SNode.place, SNode.place, onto_place m, (fields_place old p).1]
  | .node u f m mm, old, false :: p => by
    rw [SNode.onto, SNode.place, SNode.place, onto_place mm, (fields_place old p).2]

theorem filterOverIf_nil (has : Bool) (d : List Tok) : gobFilterOverIf has none none d = gobFilterIf has d := by
  unfold gobFilterOverIf gobFilterIf
  split
  · unfold gobFilterOver gobFilter; split <;> simp_all
  · rfl

/-- one level of decoding, with `next` for the branches -/
def stepS (next : SNode → List Tok → SNode × Bool) (old : SNode) (d : List Tok) : SNode × Bool :=
  match gobStr d with
  | (none, _) => (.node old.fields.1 old.fields.2.1 old.fields.2.2.1 old.fields.2.2.2, true)
  | (some uri, d1) =>
    match gobBool d1 with
    | (none, _) => (.node uri old.fields.2.1 old.fields.2.2.1 old.fields.2.2.2, true)
    | (some hasFilter, d2) =>
      match gobFilterOverIf hasFilter old.fields.2.1 old.fields.2.1 d2 with
      | (f, d3) =>
        match gobBool d3 with
        | (none, _) => (.node uri f old.fields.2.2.1 old.fields.2.2.2, true)
        | (some has, d4) =>
          match gobBinIf has d4 with
          | (i, d5) =>
            let a := match i with
              | none => if has then old.fields.2.2.1 else .nil
              | some i => (next old.fields.2.2.1 i).1
            match gobBool d5 with
            | (none, _) => (.node uri f a old.fields.2.2.2, true)
            | (some has', d6) =>
              if has' then
                match gobBin d6 with
                | (none, _) => (.node uri f a old.fields.2.2.2, true)
                | (some i, _) => (.node uri f a (next old.fields.2.2.2 i).1, (next old.fields.2.2.2 i).2)
              else (.node uri f a .nil, false)

theorem stepS_over (old : SNode) (d : List Tok) : unmarshalSNodeOver old d = stepS unmarshalSNodeOver old d := by
  rw [unmarshalSNodeOver]
  (repeat' split) <;> simp_all [stepS]

theorem stepS_plain (d : List Tok) : unmarshalSNode d = stepS (fun _ => unmarshalSNode) .nil d := by
  rw [unmarshalSNode]
  (repeat' split) <;> simp_all [stepS, SNode.fields, filterOverIf_nil]

theorem stepS_congr (g g' : SNode → List Tok → SNode × Bool) (d : List Tok)
    (h : ∀ i, sizeOf i < sizeOf d → g .nil i = g' .nil i) : stepS g .nil d = stepS g' .nil d := by
  unfold stepS
  dsimp only [SNode.fields]
  have a := gobStr_size d
  revert a
  rcases gobStr d with ⟨_ | uri, d1⟩
  · intro _; rfl
  dsimp only
  intro a
  have b := gobBool_size d1
  revert b
  rcases gobBool d1 with ⟨_ | hasFilter, d2⟩
  · intro _; rfl
  dsimp only
  intro b
  have c := gobFilterOverIf_size hasFilter none none d2
  revert c
  rcases gobFilterOverIf hasFilter none none d2 with ⟨f, d3⟩
  dsimp only
  intro c
  have e := gobBool_size d3
  revert e
  rcases gobBool d3 with ⟨_ | has, d4⟩
  · intro _; rfl
  dsimp only
  intro e
  have k := gobBinIf_size has d4
  have k' := @gobBinIf_size' has d4
  revert k k'
  rcases gobBinIf has d4 with ⟨i, d5⟩
  dsimp only
  intro k k'
  have hi : (match (generalizing := false) i with | none => if has then SNode.nil else .nil | some i => (g .nil i).1) =
      (match (generalizing := false) i with | none => if has then SNode.nil else .nil | some i => (g' .nil i).1) := by
    cases i with
    | none => rfl
    | some i => have := k' rfl; dsimp only; rw [h i (by omega)]
  rw [hi]
  have l := gobBool_size d5
  revert l
  rcases gobBool d5 with ⟨_ | has', d6⟩
  · intro _; rfl
  · dsimp only
    intro l
    cases has'
    · rfl
    · have m := @gobBin_size' d6
      revert m
      rcases gobBin d6 with ⟨_ | j, d7⟩
      · intro _; rfl
      · intro m
        have := m rfl
        dsimp only
        rw [h j (by omega)]

theorem snodeOver_nil (d : List Tok) : unmarshalSNodeOver .nil d = unmarshalSNode d := by
  have key : ∀ (n : Nat) (d : List Tok), sizeOf d < n → unmarshalSNodeOver .nil d = unmarshalSNode d := by
    intro n
    induction n with
    | zero => intro d h; omega
    | succ n ih =>
      intro d h
      rw [stepS_over, stepS_plain, stepS_congr _ (fun _ => unmarshalSNode) d fun i hi => ih i (by omega)]
  exact key (sizeOf d + 1) d (by omega)

/-! ### Patricia trie -/

theorem praw_place_ext : ∀ {s t : PRaw}, (∀ p, s.place p = t.place p) → s = t
  | .nil, .nil, _ => rfl
  | .nil, .node .., h => by have := h []; simp [PRaw.place] at this
  | .node .., .nil, h => by have := h []; simp [PRaw.place] at this
  | .node u f m mm, .node u' f' m' mm', h => by
    have h0 := h []
    simp only [PRaw.place, Option.some.injEq, Prod.mk.injEq] at h0
    obtain ⟨rfl, rfl⟩ := h0
    rw [praw_place_ext (s := m) (t := m') fun p => by simpa [PRaw.place] using h (true :: p),
      praw_place_ext (s := mm) (t := mm') fun p => by simpa [PRaw.place] using h (false :: p)]

/-- a saved trie loaded over another -/
def PRaw.onto : PRaw → PNode → PRaw
  | _, .nil => .nil
  | old, .node u f one zero =>
    .node u (overFilter old.fields.2.1 (some f)) (PRaw.onto old.fields.2.2.1 one)
      (if one = .nil then .nil else if zero = .nil then old.fields.2.2.2 else PRaw.onto old.fields.2.2.2 zero)

theorem pnodeOver_node (old : PRaw) (uri : Str) (f : FilterObject) (one zero : PNode) :
    unmarshalPNodeOver old (PNode.node uri f one zero).marshal =
        (.node uri (overFilter old.fields.2.1 (some f))
          (if one = .nil then .nil else (unmarshalPNodeOver old.fields.2.2.1 one.marshal).1)
          (if one = .nil then .nil else if zero = .nil then old.fields.2.2.2
            else (unmarshalPNodeOver old.fields.2.2.2 zero.marshal).1),
         if one = .nil then false else if zero = .nil then true
           else (unmarshalPNodeOver old.fields.2.2.2 zero.marshal).2) := by
  obtain ⟨u0, f0, m0, mm0, hf⟩ : ∃ u0 f0 m0 mm0, old.fields = (u0, f0, m0, mm0) := ⟨_, _, _, _, rfl⟩
  rw [PNode.marshal, hf]
  by_cases h1 : one = .nil <;> by_cases h2 : zero = .nil <;> cases f0 <;>
    simp only [h1, h2, ne_eq, not_true, not_false_eq_true, decide_true, decide_false, if_true, if_false,
      List.cons_append, List.nil_append] <;>
    rw [unmarshalPNodeOver, hf] <;> rfl

theorem pnodeOver_fst (t : PNode) (h : t ≠ .nil) (old : PRaw) : (unmarshalPNodeOver old t.marshal).1 = old.onto t := by
  induction t generalizing old with
  | nil => exact absurd rfl h
  | node uri f one zero ih1 ih0 =>
    rw [pnodeOver_node, PRaw.onto]
    by_cases h1 : one = .nil <;> by_cases h2 : zero = .nil <;> simp [h1, h2, ih1, ih0, PRaw.onto]

theorem pnodeOver_snd (t : PNode) (h : t ≠ .nil) (old : PRaw) :
    (unmarshalPNodeOver old t.marshal).2 = (unmarshalPNode t.marshal).2 := by
  induction t generalizing old with
  | nil => exact absurd rfl h
  | node uri f one zero ih1 ih0 =>
    rw [pnodeOver_node, unmarshalPNode_marshal]
    by_cases h1 : one = .nil <;> by_cases h2 : zero = .nil <;> simp [h1, h2, ih0]

theorem praw_fields_place (t : PRaw) (p : List Bool) :
    t.fields.2.2.1.place p = t.place (true :: p) ∧ t.fields.2.2.2.place p = t.place (false :: p) := by
  cases t <;> simp [PRaw.fields, PRaw.place]

theorem praw_fields_filter (t : PRaw) : t.fields.2.1 = (t.place []).bind Prod.snd := by
  cases t <;> simp [PRaw.fields, PRaw.place]

/-- where every node has both children or none, nothing but fields of filters is left over -/
theorem praw_onto_full : ∀ (t : PNode) (old : PRaw) (p : List Bool), t.Full → (old.onto t).place p =
    (t.raw.place p).map fun e => (e.1, overFilter ((old.place p).bind Prod.snd) e.2)
  | .nil, old, p, _ => by simp [PRaw.onto, PRaw.place, PNode.raw]
  | .node u f one zero, old, [], _ => by simp [PRaw.onto, PRaw.place, PNode.raw, praw_fields_filter]
  | .node u f one zero, old, true :: p, h => by
    rw [PRaw.onto, PRaw.place, PNode.raw, PRaw.place, praw_onto_full one _ _ h.2.1, (praw_fields_place old p).1]
  | .node u f one zero, old, false :: p, h => by
    rw [PRaw.onto, PRaw.place, PNode.raw, PRaw.place]
    by_cases h1 : one = .nil
    · rw [if_pos h1, h.1.mp h1]; simp [PNode.raw, PRaw.place]
    · rw [if_neg h1, if_neg (fun e => h1 (h.1.mpr e)), praw_onto_full zero _ _ h.2.2, (praw_fields_place old p).2]

/-- one level of decoding, with `next` for the branches -/
def stepP (next : PRaw → List Tok → PRaw × Bool) (old : PRaw) (d : List Tok) : PRaw × Bool :=
  match gobStr d with
  | (none, _) => (.node old.fields.1 old.fields.2.1 old.fields.2.2.1 old.fields.2.2.2, true)
  | (some uri, d1) =>
    match gobBool d1 with
    | (none, _) => (.node uri old.fields.2.1 old.fields.2.2.1 old.fields.2.2.2, true)
    | (some hasFilter, d2) =>
      match gobFilterOverIf hasFilter old.fields.2.1 none d2 with
      | (f, d3) =>
        match gobBool d3 with
        | (none, _) => (.node uri f old.fields.2.2.1 old.fields.2.2.2, true)
        | (some has, d4) =>
          match gobBinIf has d4 with
          | (i, d5) =>
            let a := match i with
              | none => if has then old.fields.2.2.1 else .nil
              | some i => (next old.fields.2.2.1 i).1
            match gobBool d5 with
            | (none, _) => (.node uri f a old.fields.2.2.2, true)
            | (some _, d6) =>
              if has then
                match gobBin d6 with
                | (none, _) => (.node uri f a old.fields.2.2.2, true)
                | (some i, _) => (.node uri f a (next old.fields.2.2.2 i).1, (next old.fields.2.2.2 i).2)
              else (.node uri f a .nil, false)

theorem stepP_over (old : PRaw) (d : List Tok) : unmarshalPNodeOver old d = stepP unmarshalPNodeOver old d := by
  rw [unmarshalPNodeOver]
  (repeat' split) <;> simp_all [stepP]

theorem stepP_plain (d : List Tok) : unmarshalPNode d = stepP (fun _ => unmarshalPNode) .nil d := by
  rw [unmarshalPNode]
  (repeat' split) <;> simp_all [stepP, PRaw.fields, filterOverIf_nil]

theorem stepP_congr (g g' : PRaw → List Tok → PRaw × Bool) (d : List Tok)
    (h : ∀ i, sizeOf i < sizeOf d → g .nil i = g' .nil i) : stepP g .nil d = stepP g' .nil d := by
  unfold stepP
  dsimp only [PRaw.fields]
  have a := gobStr_size d
  revert a
  rcases gobStr d with ⟨_ | uri, d1⟩
  · intro _; rfl
  dsimp only
  intro a
  have b := gobBool_size d1
  revert b
  rcases gobBool d1 with ⟨_ | hasFilter, d2⟩
  · intro _; rfl
  dsimp only
  intro b
  have c := gobFilterOverIf_size hasFilter none none d2
  revert c
  rcases gobFilterOverIf hasFilter none none d2 with ⟨f, d3⟩
  dsimp only
  intro c
  have e := gobBool_size d3
  revert e
  rcases gobBool d3 with ⟨_ | has, d4⟩
  · intro _; rfl
  dsimp only
  intro e
  have k := gobBinIf_size has d4
  have k' := @gobBinIf_size' has d4
  revert k k'
  rcases gobBinIf has d4 with ⟨i, d5⟩
  dsimp only
  intro k k'
  have hi : (match (generalizing := false) i with | none => if has then PRaw.nil else .nil | some i => (g .nil i).1) =
      (match (generalizing := false) i with | none => if has then PRaw.nil else .nil | some i => (g' .nil i).1) := by
    cases i with
    | none => rfl
    | some i => have := k' rfl; dsimp only; rw [h i (by omega)]
  rw [hi]
  have l := gobBool_size d5
  revert l
  rcases gobBool d5 with ⟨_ | has', d6⟩
  · intro _; rfl
  · dsimp only
    intro l
    cases has
    · rfl
    · have m := @gobBin_size' d6
      revert m
      rcases gobBin d6 with ⟨_ | j, d7⟩
      · intro _; rfl
      · intro m
        have := m rfl
        dsimp only
        rw [h j (by omega)]

theorem pnodeOver_nil (d : List Tok) : unmarshalPNodeOver .nil d = unmarshalPNode d := by
  have key : ∀ (n : Nat) (d : List Tok), sizeOf d < n → unmarshalPNodeOver .nil d = unmarshalPNode d := by
    intro n
    induction n with
    | zero => intro d h; omega
    | succ n ih =>
      intro d h
      rw [stepP_over, stepP_plain, stepP_congr _ (fun _ => unmarshalPNode) d fun i hi => ih i (by omega)]
  exact key (sizeOf d + 1) d (by omega)

theorem overFilter_eq_iff (old f : Option FilterObject) : overFilter old f = f ↔ Loaded old f f :=
  ⟨fun h => by have := overFilter_loaded old f; rwa [h] at this, fun h => (loaded_unique h).symm⟩

theorem onto_eq_iff (t old : SNode) : old.onto t = t ↔
    ∀ p u f, t.place p = some (u, f) → Loaded ((old.place p).bind Prod.snd) f f := by
  constructor
  · intro h p u f hp
    have := onto_place t old p
    rw [h, hp, Option.map_some, Option.some.injEq, Prod.mk.injEq] at this
    exact (overFilter_eq_iff _ _).mp this.2.symm
  · intro h
    refine snode_place_ext fun p => ?_
    rw [onto_place]
    cases hp : t.place p with
    | none => rfl
    | some e => rw [Option.map_some, (overFilter_eq_iff _ _).mpr (h p e.1 e.2 hp)]

theorem onto_onto (t old : SNode) : (old.onto t).onto t = old.onto t := by
  refine snode_place_ext fun p => ?_
  rw [onto_place, onto_place]
  cases t.place p with
  | none => rfl
  | some e => simp [overFilter_overFilter]

theorem raw_place_nil {t : PNode} : t.raw.place [] = none ↔ t = .nil := by
  cases t <;> simp [PNode.raw, PRaw.place]

theorem praw_place_none {t : PRaw} : t.place [] = none ↔ t = .nil := by
  cases t <;> simp [PRaw.place]

theorem praw_onto_eq_iff : ∀ (t : PNode) (old : PRaw), old.onto t = t.raw ↔
    ¬ t.HasLoneZero ∧ (∀ p u f, t.raw.place p = some (u, f) → Loaded ((old.place p).bind Prod.snd) f f) ∧
    ∀ p, (t.raw.place (p ++ [true])).isSome = true → t.raw.place (p ++ [false]) = none → old.place (p ++ [false]) = none
  | .nil, old => by simp [PRaw.onto, PNode.raw, PNode.HasLoneZero, PRaw.place]
  | .node u f one zero, old => by
    have i1 := praw_onto_eq_iff one old.fields.2.2.1
    have i0 := praw_onto_eq_iff zero old.fields.2.2.2
    have pl := praw_fields_place old
    rw [PRaw.onto, PNode.raw, PRaw.node.injEq, i1, praw_fields_filter, overFilter_eq_iff]
    constructor
    · rintro ⟨-, hf, ⟨h1, h2, h3⟩, h0⟩
      by_cases e1 : one = .nil
      · rw [if_pos e1] at h0
        have e0 : zero = .nil := by cases zero with
          | nil => rfl
          | node => simp [PNode.raw] at h0
        subst e1 e0
        refine ⟨by simp [PNode.HasLoneZero], ?_, ?_⟩
        · intro p u' f' hp
          match p with
          | [] => simp only [PRaw.place, Option.some.injEq, Prod.mk.injEq] at hp; rw [← hp.2]; exact hf
          | true :: p => simp [PRaw.place, PNode.raw] at hp
          | false :: p => simp [PRaw.place, PNode.raw] at hp
        · intro p hp
          match p with
          | [] => simp [PRaw.place, PNode.raw] at hp
          | true :: p => simp [PRaw.place, PNode.raw] at hp
          | false :: p => simp [PRaw.place, PNode.raw] at hp
      · rw [if_neg e1] at h0
        have z : (zero = .nil ∧ old.fields.2.2.2 = .nil) ∨ (zero ≠ .nil ∧ old.fields.2.2.2.onto zero = zero.raw) := by
          by_cases e0 : zero = .nil
          · rw [if_pos e0, e0] at h0; exact .inl ⟨e0, h0⟩
          · rw [if_neg e0] at h0; exact .inr ⟨e0, h0⟩
        rw [i0] at z
        refine ⟨?_, ?_, ?_⟩
        · rintro (⟨a, -⟩ | a | a)
          · exact e1 a
          · exact h1 a
          · rcases z with ⟨rfl, -⟩ | ⟨-, z, -⟩
            · exact a
            · exact z a
        · intro p u' f' hp
          match p with
          | [] => simp only [PRaw.place, Option.some.injEq, Prod.mk.injEq] at hp; rw [← hp.2]; exact hf
          | true :: p => rw [← (pl p).1]; exact h2 p u' f' hp
          | false :: p =>
            rcases z with ⟨rfl, -⟩ | ⟨-, -, z, -⟩
            · simp [PRaw.place, PNode.raw] at hp
            · rw [← (pl p).2]; exact z p u' f' hp
        · intro p hp hq
          match p with
          | [] =>
            rcases z with ⟨rfl, z⟩ | ⟨z, -⟩
            · rw [List.nil_append, ← (pl []).2, z]; rfl
            · exact absurd (raw_place_nil.mp hq) z
          | true :: p =>
            rw [List.cons_append, ← (pl _).1]
            exact h3 p (by simpa [PRaw.place] using hp) (by simpa [PRaw.place] using hq)
          | false :: p =>
            rcases z with ⟨rfl, z⟩ | ⟨-, -, -, z⟩
            · rw [List.cons_append, ← (pl _).2, z]; rfl
            · rw [List.cons_append, ← (pl _).2]
              exact z p (by simpa [PRaw.place] using hp) (by simpa [PRaw.place] using hq)
    · rintro ⟨h1, h2, h3⟩
      refine ⟨rfl, h2 [] u (some f) rfl, ⟨fun a => h1 (.inr (.inl a)), ?_, ?_⟩, ?_⟩
      · intro p u' f' hp; rw [(pl p).1]; exact h2 (true :: p) u' f' hp
      · intro p hp hq; rw [(pl _).1]; exact h3 (true :: p) hp hq
      · by_cases e1 : one = .nil
        · rw [if_pos e1]
          have : zero = .nil := by
            by_cases e0 : zero = .nil
            · exact e0
            · exact absurd (.inl ⟨e1, e0⟩) h1
          rw [this]; rfl
        · rw [if_neg e1]
          by_cases e0 : zero = .nil
          · rw [if_pos e0, e0]
            have := h3 [] (by
              cases one with
              | nil => exact absurd rfl e1
              | node => rfl) (by rw [e0]; rfl)
            rw [List.nil_append, ← (pl []).2] at this
            exact praw_place_none.mp this
          · rw [if_neg e0, i0]
            refine ⟨fun a => h1 (.inr (.inr a)), ?_, ?_⟩
            · intro p u' f' hp; rw [(pl p).2]; exact h2 (false :: p) u' f' hp
            · intro p hp hq; rw [(pl _).2]; exact h3 (false :: p) hp hq

theorem praw_onto_onto : ∀ (t : PNode) (old : PRaw), (old.onto t).onto t = old.onto t
  | .nil, old => by simp [PRaw.onto]
  | .node u f one zero, old => by
    have h1 := praw_onto_onto one old.fields.2.2.1
    have h0 := praw_onto_onto zero old.fields.2.2.2
    have e : ∀ (u : Str) (g : Option FilterObject) (a b : PRaw), (PRaw.node u g a b).fields = (u, g, a, b) :=
      fun _ _ _ _ => rfl
    rw [PRaw.onto, PRaw.onto, e]
    dsimp only
    rw [overFilter_overFilter, h1]
    by_cases e1 : one = .nil
    · simp [e1]
    · by_cases e0 : zero = .nil
      · simp [e1, e0]
      · simp [e1, e0, h0]

theorem loaded_made {s : Str} (h : IsFilterStr s) (o : Nat) (s' : Str) (o' : Nat) :
    Loaded (some (newFilter s' o')) (some (newFilter s o)) (some (newFilter s o)) ↔ NothingLeft s o s' o' := by
  rw [← overFilter_eq_iff, ← over_made h]
  simp [overFilter]

/-! ### partial subscriptions -/

theorem bsubOver_marshal : ∀ (s old : List (Str × PSub)), BSubMaps s → IsMap s → IsMap old →
    ∃ r, unmarshalBSub (marshalBSub s) old = (r, false) ∧ IsMap r ∧
      ∀ q, mapGet r q = (mapGet s q).or (mapGet old q)
  | [], old, _, _, ho => ⟨old, by rw [marshalBSub, unmarshalBSub], ho, fun q => by simp [mapGet]⟩
  | (k, p) :: s, old, h, hm, ho => by
    unfold BSubMaps at h
    have hm' : IsMap s := by unfold IsMap at hm ⊢; rw [List.map_cons, List.nodup_cons] at hm; exact hm.2
    have hk : mapGet s k = none := by
      unfold IsMap at hm; rw [List.map_cons, List.nodup_cons] at hm
      exact (mapGet_none s k).mpr hm.1
    obtain ⟨r, h1, h2, h3⟩ := bsubOver_marshal s (mapSet old k p) h.2 hm' (isMap_mapSet ho k p)
    refine ⟨r, ?_, h2, fun q => ?_⟩
    · rw [marshalBSub, unmarshalBSub, unmarshalPSub_marshal p h.1]
      simpa using h1
    · rw [h3, mapGet_mapSet]
      by_cases e : q = k
      · subst e; simp [hk, mapGet]
      · simp [mapGet, Ne.symm e]

end Gosstrak
