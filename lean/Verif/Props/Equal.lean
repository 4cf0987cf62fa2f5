import Verif.Spec.Equal
import Verif.Props.Splay
import Verif.Props.PatriciaUpdate

/-! ## The comparison of trees in the tests: C82 -/
namespace Gosstrak

/-- the comparison of a child, as both `equal` functions make it -/
def SNode.equalChild (m m' : SNode) : Option (Bool × SNode × SNode) :=
  if m' ≠ .nil then
    if m = .nil then some (false, .nil, m') else m.equal m'
  else some (true, .nil, .nil)

/-- what is to be shown of a comparison -/
def SNode.Compared (a w : SNode) (r : Option (Bool × SNode × SNode)) : Prop :=
  ∃ ok g d, r = some (ok, g, d) ∧ (ok = true ↔ w.Cut a) ∧
    (ok = false → ∃ p, g = a.sub p ∧ d = w.sub p ∧ d ≠ .nil ∧ g.label ≠ d.label ∧
      ∀ q, Before q p → w.sub q ≠ .nil → (a.sub q).label = (w.sub q).label)

theorem SNode.sub_nil (t : SNode) : t.sub [] = t := by cases t <;> rfl

theorem SNode.label_eq_none (t : SNode) : t.label = none ↔ t = .nil := by cases t <;> simp [SNode.label]

theorem SNode.Cut.labels {w a : SNode} (h : w.Cut a) : ∀ q, w.sub q ≠ .nil → (a.sub q).label = (w.sub q).label := by
  induction h with
  | nil t =>
    intro q hq
    cases q <;> exact absurd rfl hq
  | @node u f m mm m' mm' h1 h2 i1 i2 =>
    intro q hq
    cases q with
    | nil => rfl
    | cons b q =>
      cases b
      · exact i2 q hq
      · exact i1 q hq

theorem SNode.equalChild_ok (m m' : SNode) (ih : m ≠ .nil → m' ≠ .nil → m.Compared m' (m.equal m')) :
    m.Compared m' (m.equalChild m') := by
  unfold SNode.equalChild
  by_cases h' : m' = .nil
  · rw [if_neg (by simp [h'])]
    subst h'
    exact ⟨true, _, _, rfl, ⟨fun _ => .nil _, fun _ => rfl⟩, fun h => by cases h⟩
  · rw [if_pos h']
    by_cases h : m = .nil
    · rw [if_pos h]
      subst h
      refine ⟨false, _, _, rfl, ⟨fun h => (by cases h), fun h => ?_⟩, fun _ => ⟨[], rfl, ?_, h', ?_, ?_⟩⟩
      · cases h
        exact absurd rfl h'
      · rw [SNode.sub_nil]
      · intro e
        exact h' ((SNode.label_eq_none m').mp e.symm)
      · intro q hq
        cases q <;> exact absurd hq (by simp [Before])
    · rw [if_neg h]
      exact ih h h'

/-- `equal` of a splay tree node is true exactly when the wanted tree is the one got with subtrees cut off; otherwise it
    returns the first position, in the order of the walk, at which the wanted tree has a node and the
    other one has none or one with another URI or filter. -/
theorem C82_splay (a w : SNode) (ha : a ≠ .nil) (hw : w ≠ .nil) :
    ∃ ok g d, a.equal w = some (ok, g, d) ∧ (ok = true ↔ w.Cut a) ∧
      (ok = false → ∃ p, g = a.sub p ∧ d = w.sub p ∧ d ≠ .nil ∧ g.label ≠ d.label ∧
        ∀ q, Before q p → w.sub q ≠ .nil → (a.sub q).label = (w.sub q).label) := by
  induction a generalizing w with
  | nil => exact absurd rfl ha
  | node u f m mm i1 i2 =>
    cases w with
    | nil => exact absurd rfl hw
    | node u' f' m' mm' =>
      have k1 := SNode.equalChild_ok m m' (fun h h' => i1 m' h h')
      have k2 := SNode.equalChild_ok mm mm' (fun h h' => i2 mm' h h')
      by_cases hl : u ≠ u' ∨ f ≠ f'
      · refine ⟨false, .node u f m mm, .node u' f' m' mm', ?_, ⟨fun h => (by cases h), fun h => ?_⟩,
          fun _ => ⟨[], rfl, rfl, hw, ?_, ?_⟩⟩
        · rw [SNode.equal, if_pos hl]
        · cases h
          simp at hl
        · intro e
          have e := Option.some.inj e
          have e1 := (Prod.mk.inj e).1
          have e2 := (Prod.mk.inj e).2
          rcases hl with h | h
          · exact h e1
          · exact h e2
        · intro q hq
          cases q <;> exact absurd hq (by simp [Before])
      · have hu : u = u' := Classical.byContradiction fun h => hl (Or.inl h)
        have hf : f = f' := Classical.byContradiction fun h => hl (Or.inr h)
        subst hu hf
        obtain ⟨ok1, g1, d1, e1, c1, p1⟩ := k1
        obtain ⟨ok2, g2, d2, e2, c2, p2⟩ := k2
        have heq : (SNode.node u f m mm).equal (.node u f m' mm') =
            match m.equalChild m' with
            | none => none
            | some (false, g, w) => some (false, g, w)
            | some (true, _, _) => mm.equalChild mm' := by
          rw [SNode.equal, if_neg hl]
          rfl
        rw [heq, e1]
        cases ok1 with
        | false =>
          refine ⟨false, g1, d1, rfl, ⟨fun h => (by cases h), fun h => ?_⟩, fun _ => ?_⟩
          · cases h with
            | node _ _ h1 h2 => exact c1.mpr h1
          · obtain ⟨p, q1, q2, q3, q4, q5⟩ := p1 rfl
            refine ⟨true :: p, q1, q2, q3, q4, ?_⟩
            intro q hq hne
            cases q with
            | nil => rfl
            | cons b q =>
              rcases hq with ⟨_, h⟩ | ⟨h, hq⟩
              · cases h
              · subst h
                exact q5 q hq hne
        | true =>
          have hc1 := c1.mp rfl
          refine ⟨ok2, g2, d2, e2, ⟨fun h => ?_, fun h => ?_⟩, fun h => ?_⟩
          · exact .node u f hc1 (c2.mp h)
          · cases h with
            | node _ _ h1 h2 => exact c2.mpr h2
          · obtain ⟨p, q1, q2, q3, q4, q5⟩ := p2 h
            refine ⟨false :: p, q1, q2, q3, q4, ?_⟩
            intro q hq hne
            cases q with
            | nil => rfl
            | cons b q =>
              cases b with
              | true => exact hc1.labels q hne
              | false =>
                rcases hq with ⟨h, _⟩ | ⟨_, hq⟩
                · cases h
                · exact q5 q hq hne

theorem SNode.cut_antisymm (a b : SNode) (h : a.Cut b) (h' : b.Cut a) : a = b := by
  induction h with
  | nil t =>
    cases h'
    rfl
  | node u f h1 h2 i1 i2 =>
    cases h' with
    | node _ _ k1 k2 => rw [i1 k1, i2 k2]

theorem SNode.cut_refl (a : SNode) : a.Cut a := by
  induction a with
  | nil => exact .nil _
  | node u f m mm i1 i2 => exact .node u f i1 i2

/-- Compared both ways, `equal` is equality. -/
theorem C82_splay_both (a w : SNode) (ha : a ≠ .nil) (hw : w ≠ .nil) :
    ((∃ g d, a.equal w = some (true, g, d)) ∧ ∃ g d, w.equal a = some (true, g, d)) ↔ a = w := by
  obtain ⟨ok, g, d, h1, h2, -⟩ := C82_splay a w ha hw
  obtain ⟨ok', g', d', k1, k2, -⟩ := C82_splay w a hw ha
  constructor
  · rintro ⟨⟨g2, d2, e⟩, ⟨g3, d3, e'⟩⟩
    rw [h1] at e
    rw [k1] at e'
    cases e
    cases e'
    exact SNode.cut_antisymm a w (k2.mp rfl) (h2.mp rfl)
  · rintro rfl
    have hok : ok = true := h2.mpr (SNode.cut_refl a)
    rw [hok] at h1
    exact ⟨⟨g, d, h1⟩, ⟨g, d, h1⟩⟩

/-- the comparison of a child, as both `equal` functions make it -/
def PNode.equalChild (m m' : PNode) : Option (Bool × PNode × PNode) :=
  if m' ≠ .nil then
    if m = .nil then some (false, .nil, m') else m.equal m'
  else some (true, .nil, .nil)

/-- what is to be shown of a comparison -/
def PNode.Compared (a w : PNode) (r : Option (Bool × PNode × PNode)) : Prop :=
  ∃ ok g d, r = some (ok, g, d) ∧ (ok = true ↔ w.Cut a) ∧
    (ok = false → ∃ p, g = a.sub p ∧ d = w.sub p ∧ d ≠ .nil ∧ g.label ≠ d.label ∧
      ∀ q, Before q p → w.sub q ≠ .nil → (a.sub q).label = (w.sub q).label)

theorem PNode.sub_nil (t : PNode) : t.sub [] = t := by cases t <;> rfl

theorem PNode.label_eq_none (t : PNode) : t.label = none ↔ t = .nil := by cases t <;> simp [PNode.label]

theorem PNode.Cut.labels {w a : PNode} (h : w.Cut a) : ∀ q, w.sub q ≠ .nil → (a.sub q).label = (w.sub q).label := by
  induction h with
  | nil t =>
    intro q hq
    cases q <;> exact absurd rfl hq
  | @node u f m mm m' mm' h1 h2 i1 i2 =>
    intro q hq
    cases q with
    | nil => rfl
    | cons b q =>
      cases b
      · exact i2 q hq
      · exact i1 q hq

theorem PNode.equalChild_ok (m m' : PNode) (ih : m ≠ .nil → m' ≠ .nil → m.Compared m' (m.equal m')) :
    m.Compared m' (m.equalChild m') := by
  unfold PNode.equalChild
  by_cases h' : m' = .nil
  · rw [if_neg (by simp [h'])]
    subst h'
    exact ⟨true, _, _, rfl, ⟨fun _ => .nil _, fun _ => rfl⟩, fun h => by cases h⟩
  · rw [if_pos h']
    by_cases h : m = .nil
    · rw [if_pos h]
      subst h
      refine ⟨false, _, _, rfl, ⟨fun h => (by cases h), fun h => ?_⟩, fun _ => ⟨[], rfl, ?_, h', ?_, ?_⟩⟩
      · cases h
        exact absurd rfl h'
      · rw [PNode.sub_nil]
      · intro e
        exact h' ((PNode.label_eq_none m').mp e.symm)
      · intro q hq
        cases q <;> exact absurd hq (by simp [Before])
    · rw [if_neg h]
      exact ih h h'

/-- `equal` of a trie node is true exactly when the wanted tree is the one got with subtrees cut off; otherwise it
    returns the first position, in the order of the walk, at which the wanted tree has a node and the
    other one has none or one with another URI or filter. -/
theorem C82_trie (a w : PNode) (ha : a ≠ .nil) (hw : w ≠ .nil) :
    ∃ ok g d, a.equal w = some (ok, g, d) ∧ (ok = true ↔ w.Cut a) ∧
      (ok = false → ∃ p, g = a.sub p ∧ d = w.sub p ∧ d ≠ .nil ∧ g.label ≠ d.label ∧
        ∀ q, Before q p → w.sub q ≠ .nil → (a.sub q).label = (w.sub q).label) := by
  induction a generalizing w with
  | nil => exact absurd rfl ha
  | node u f m mm i1 i2 =>
    cases w with
    | nil => exact absurd rfl hw
    | node u' f' m' mm' =>
      have k1 := PNode.equalChild_ok m m' (fun h h' => i1 m' h h')
      have k2 := PNode.equalChild_ok mm mm' (fun h h' => i2 mm' h h')
      by_cases hl : u ≠ u' ∨ f ≠ f'
      · refine ⟨false, .node u f m mm, .node u' f' m' mm', ?_, ⟨fun h => (by cases h), fun h => ?_⟩,
          fun _ => ⟨[], rfl, rfl, hw, ?_, ?_⟩⟩
        · rw [PNode.equal, if_pos hl]
        · cases h
          simp at hl
        · intro e
          have e := Option.some.inj e
          have e1 := (Prod.mk.inj e).1
          have e2 := (Prod.mk.inj e).2
          rcases hl with h | h
          · exact h e1
          · exact h e2
        · intro q hq
          cases q <;> exact absurd hq (by simp [Before])
      · have hu : u = u' := Classical.byContradiction fun h => hl (Or.inl h)
        have hf : f = f' := Classical.byContradiction fun h => hl (Or.inr h)
        subst hu hf
        obtain ⟨ok1, g1, d1, e1, c1, p1⟩ := k1
        obtain ⟨ok2, g2, d2, e2, c2, p2⟩ := k2
        have heq : (PNode.node u f m mm).equal (.node u f m' mm') =
            match m.equalChild m' with
            | none => none
            | some (false, g, w) => some (false, g, w)
            | some (true, _, _) => mm.equalChild mm' := by
          rw [PNode.equal, if_neg hl]
          rfl
        rw [heq, e1]
        cases ok1 with
        | false =>
          refine ⟨false, g1, d1, rfl, ⟨fun h => (by cases h), fun h => ?_⟩, fun _ => ?_⟩
          · cases h with
            | node _ _ h1 h2 => exact c1.mpr h1
          · obtain ⟨p, q1, q2, q3, q4, q5⟩ := p1 rfl
            refine ⟨true :: p, q1, q2, q3, q4, ?_⟩
            intro q hq hne
            cases q with
            | nil => rfl
            | cons b q =>
              rcases hq with ⟨_, h⟩ | ⟨h, hq⟩
              · cases h
              · subst h
                exact q5 q hq hne
        | true =>
          have hc1 := c1.mp rfl
          refine ⟨ok2, g2, d2, e2, ⟨fun h => ?_, fun h => ?_⟩, fun h => ?_⟩
          · exact .node u f hc1 (c2.mp h)
          · cases h with
            | node _ _ h1 h2 => exact c2.mpr h2
          · obtain ⟨p, q1, q2, q3, q4, q5⟩ := p2 h
            refine ⟨false :: p, q1, q2, q3, q4, ?_⟩
            intro q hq hne
            cases q with
            | nil => rfl
            | cons b q =>
              cases b with
              | true => exact hc1.labels q hne
              | false =>
                rcases hq with ⟨h, _⟩ | ⟨_, hq⟩
                · cases h
                · exact q5 q hq hne

theorem PNode.cut_antisymm (a b : PNode) (h : a.Cut b) (h' : b.Cut a) : a = b := by
  induction h with
  | nil t =>
    cases h'
    rfl
  | node u f h1 h2 i1 i2 =>
    cases h' with
    | node _ _ k1 k2 => rw [i1 k1, i2 k2]

theorem PNode.cut_refl (a : PNode) : a.Cut a := by
  induction a with
  | nil => exact .nil _
  | node u f m mm i1 i2 => exact .node u f i1 i2

/-- Compared both ways, `equal` is equality. -/
theorem C82_trie_both (a w : PNode) (ha : a ≠ .nil) (hw : w ≠ .nil) :
    ((∃ g d, a.equal w = some (true, g, d)) ∧ ∃ g d, w.equal a = some (true, g, d)) ↔ a = w := by
  obtain ⟨ok, g, d, h1, h2, -⟩ := C82_trie a w ha hw
  obtain ⟨ok', g', d', k1, k2, -⟩ := C82_trie w a hw ha
  constructor
  · rintro ⟨⟨g2, d2, e⟩, ⟨g3, d3, e'⟩⟩
    rw [h1] at e
    rw [k1] at e'
    cases e
    cases e'
    exact PNode.cut_antisymm a w (k2.mp rfl) (h2.mp rfl)
  · rintro rfl
    have hok : ok = true := h2.mpr (PNode.cut_refl a)
    rw [hok] at h1
    exact ⟨⟨g, d, h1⟩, ⟨g, d, h1⟩⟩


/-- Refuted: engines that `equal` takes for equal do not report the same. -/
theorem C82_splay_one_sided : ¬ ∀ (mk : Encoder) (sub sub' : Subs) (t t' g d : SNode) (id : List Byte),
    newSplay mk sub = some t → newSplay mk sub' = some t' → t.equal t' = some (true, g, d) →
    (t.search id).map Prod.fst = (t'.search id).map Prod.fst := by
  intro h
  have := h toyEncoder [("a".toList, ["urn:epc:pat:s:00".toList]), ("b".toList, ["urn:epc:pat:s:01".toList])]
    [("a".toList, ["urn:epc:pat:s:00".toList])] _ _ .nil .nil [0x40#8]
    (show _ = some (.node "a".toList (some (newFilter "00".toList 0)) .nil
      (.node "b".toList (some (newFilter "01".toList 0)) .nil .nil)) by decide +kernel)
    (show _ = some (.node "a".toList (some (newFilter "00".toList 0)) .nil .nil) by decide +kernel)
    (by decide +kernel)
  revert this
  decide +kernel

/-- Refuted: tries that `equal` takes for equal do not report the same. -/
theorem C82_trie_one_sided : ¬ ∀ (mk : Encoder) (sub sub' : Subs) (g d : PNode) (id : List Byte),
    (newPatricia mk sub).equal (newPatricia mk sub') = some (true, g, d) →
    (newPatricia mk sub).search id = (newPatricia mk sub').search id := by
  intro h
  have := h toyEncoder [("a".toList, ["urn:epc:pat:s:0".toList]), ("b".toList, ["urn:epc:pat:s:1".toList]),
      ("c".toList, ["urn:epc:pat:s:00".toList])]
    [("a".toList, ["urn:epc:pat:s:0".toList]), ("b".toList, ["urn:epc:pat:s:1".toList])] .nil .nil [0x30#8]
    (by decide +kernel)
  revert this
  decide +kernel

/-- a splay tree with two filters and one with the first of them -/
example :
    let t2 : SNode := .node "a".toList (some (newFilter "00".toList 0)) .nil
      (.node "b".toList (some (newFilter "01".toList 0)) .nil .nil)
    let t1 : SNode := .node "a".toList (some (newFilter "00".toList 0)) .nil .nil
    t2.equal t1 = some (true, .nil, .nil) ∧ t2 ≠ t1 ∧
    t1.equal t2 = some (false, .nil, .node "b".toList (some (newFilter "01".toList 0)) .nil .nil) := by
  decide +kernel

end Gosstrak
