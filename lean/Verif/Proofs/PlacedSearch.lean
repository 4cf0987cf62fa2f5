import Verif.Proofs.PlacedHistory
import Verif.Props.Filter

/-! Searches of placed tries. -/
namespace Gosstrak

open PNode

/-- the tests of a row from character `n` on, among the rows `R`, as far as the ID goes -/
def RowTests (B : Str) (n : Nat) (R : List PRow) (e : PRow) : Prop :=
  (∀ i p : Nat, n ≤ i → e.2.1[i]? = some p → p < B.length → B[p]? = e.1[i]?) ∧
  ∀ e' ∈ R, e'.1 <+: e.1 → e'.1 ≠ e.1 → B[placeAfter e'.2.1]? = e.1[e'.1.length]?

/-- a place from character `n` on that the ID lacks -/
def RowOut (B : Str) (n : Nat) (e : PRow) : Prop := ∃ i p : Nat, n ≤ i ∧ e.2.1[i]? = some p ∧ B.length ≤ p

/-- the label agrees as far as the ID goes -/
def LabelTests (B s : Str) (o : Nat) : Prop := ∀ j, j < s.length → o + j < B.length → B[o + j]? = s[j]?

theorem labelTests_covers {B s : Str} {o : Nat} (h : o + s.length ≤ B.length) :
    LabelTests B s o ↔ s <+: B.drop o := by
  rw [List.prefix_iff_getElem?]
  constructor
  · intro h2 j hj
    rw [List.getElem?_drop, h2 j hj (by omega), List.getElem?_eq_getElem hj]
  · intro h2 j hj _
    have := h2 j hj
    rw [List.getElem?_drop] at this
    rw [this, List.getElem?_eq_getElem hj]

theorem labelTests_carries {s : Str} {o : Nat} {id : List Byte} (hs : IsBitStr s) :
    LabelTests (bitsOf id) s o ↔ CarriesPresent s o id := by
  unfold LabelTests CarriesPresent
  rw [length_bitsOf]
  constructor
  · intro h i c hi _ hin
    have hlt := (List.getElem?_eq_some_iff.mp hi).1
    have := h i hlt hin
    rw [bitsOf_getElem?, if_pos hin, hi, Option.some.injEq] at this
    rw [← this]
    cases idBit id (o + i) <;> simp
  · intro h j hj hin
    rw [bitsOf_getElem?, if_pos hin, List.getElem?_eq_getElem hj]
    have hb := hs s[j] (List.getElem_mem hj)
    have := h j s[j] (List.getElem?_eq_getElem hj) (by rcases hb with h | h <;> rw [h] <;> decide) hin
    rcases hb with hb | hb
    · rw [hb] at this ⊢
      cases hx : idBit id (o + j) with
      | false => simp
      | true => rw [hx] at this; exact absurd (this.mpr rfl) (by decide)
    · rw [hb] at this ⊢
      rw [this.mp rfl]; simp

theorem search_rows (id : List Byte) (hid : id ≠ []) : ∀ (t : PNode) (P : Str) (pl : List Nat), t ≠ .nil → Skew t →
    pl.length = P.length → (t.str ≠ [] ∨ offs t = placeAfter pl ∧ offs t < 8 * id.length) →
    ((∃ e ∈ rowsOf P pl t, RowTests (bitsOf id) P.length (rowsOf P pl t) e ∧ RowOut (bitsOf id) P.length e) →
      t.search id = none) ∧
    ((¬ ∃ e ∈ rowsOf P pl t, RowTests (bitsOf id) P.length (rowsOf P pl t) e ∧ RowOut (bitsOf id) P.length e) →
    ∃ hits : FlatSubs, (hits.map Prod.fst).Pairwise (fun a b => a <+: b ∧ a ≠ b) ∧
      (∀ m u, (m, u) ∈ hits ↔ u ≠ [] ∧ ∃ l, (m, l, u) ∈ rowsOf P pl t ∧
        RowTests (bitsOf id) P.length (rowsOf P pl t) (m, l, u)) ∧
      t.search id = some (hits.map Prod.snd))
  | .nil, _, _, h, _, _, _ => absurd rfl h
  | .node u f one zero, P, pl, _, ⟨hbit, hf, hw1, hw0, hh1, hh0⟩, hl, hent => by
    have hlen : (pl ++ List.range' f.offset f.str.length).length = (P ++ f.str).length := by simp [hl]
    have hpa : placeAfter (pl ++ List.range' f.offset f.str.length) = f.offset + f.str.length := by
      apply placeAfter_range
      rcases hent with h | h
      · exact Or.inl (fun h0 => h (List.length_eq_zero_iff.mp h0))
      · exact Or.inr h.1
    have own : (P ++ f.str, pl ++ List.range' f.offset f.str.length, u) ∈ rowsOf P pl (.node u f one zero) := by
      rw [rowsOf]; exact List.mem_cons_self
    -- the label of this node among the tests of a row
    have hkp : ∀ e ∈ rowsOf P pl (.node u f one zero), ∀ j, j < f.str.length →
        e.1[P.length + j]? = f.str[j]? ∧ e.2.1[P.length + j]? = some (f.offset + j) := by
      intro e he j hj
      have hpre : P ++ f.str <+: e.1 := rows_prefix _ P pl e he
      have hpl : pl ++ List.range' f.offset f.str.length <+: e.2.1 := by
        rw [rowsOf, List.mem_cons, List.mem_append] at he
        rcases he with rfl | he | he
        · exact List.prefix_rfl
        · exact (rows_length one _ _ hlen e he).2
        · exact (rows_length zero _ _ hlen e he).2
      obtain ⟨x, hx⟩ := hpre
      obtain ⟨y, hy⟩ := hpl
      constructor
      · rw [← hx, List.append_assoc, List.getElem?_append_right (by omega), Nat.add_sub_cancel_left,
          List.getElem?_append_left hj]
      · rw [← hy, List.append_assoc, List.getElem?_append_right (by omega), hl, Nat.add_sub_cancel_left,
          List.getElem?_append_left (by simpa using hj), List.getElem?_range' hj]
        simp
    have hlab : ∀ e ∈ rowsOf P pl (.node u f one zero),
        (∀ i p : Nat, P.length ≤ i → e.2.1[i]? = some p → p < (bitsOf id).length → (bitsOf id)[p]? = e.1[i]?) ↔
        LabelTests (bitsOf id) f.str f.offset ∧
        ∀ i p : Nat, (P ++ f.str).length ≤ i → e.2.1[i]? = some p → p < (bitsOf id).length → (bitsOf id)[p]? = e.1[i]? := by
      intro e he
      constructor
      · intro h
        refine ⟨?_, fun i p hi => h i p (by rw [List.length_append] at hi; omega)⟩
        intro j hj hin
        rw [h (P.length + j) (f.offset + j) (by omega) (hkp e he j hj).2 hin, (hkp e he j hj).1]
      · rintro ⟨h1, h2⟩ i p hi hp hin
        by_cases hj : i - P.length < f.str.length
        · obtain ⟨e2, e1⟩ := hkp e he _ hj
          rw [show P.length + (i - P.length) = i by omega] at e1 e2
          rw [hp, Option.some.injEq] at e1
          rw [e1] at hin ⊢
          rw [e2, ← h1 _ hj hin]
        · exact h2 i p (by rw [List.length_append]; omega) hp hin
    have ownforks : ∀ e' ∈ rowsOf P pl (.node u f one zero), e'.1 <+: P ++ f.str → e'.1 ≠ P ++ f.str →
        (bitsOf id)[placeAfter e'.2.1]? = (P ++ f.str)[e'.1.length]? := by
      intro e' he' hp hne
      exact absurd (prefix_antisymm hp (rows_prefix _ P pl e' he')) hne
    have hownp : LabelTests (bitsOf id) f.str f.offset → RowTests (bitsOf id) P.length (rowsOf P pl (.node u f one zero))
        (P ++ f.str, pl ++ List.range' f.offset f.str.length, u) := by
      intro hlt
      refine ⟨(hlab _ own).mpr ⟨hlt, ?_⟩, ownforks⟩
      intro i p hi hp
      rw [List.getElem?_eq_none (by rw [hlen]; exact hi)] at hp
      simp at hp
    by_cases hcv : Covers f.str f.offset id
    · have hfit := hcv.1
      have hm := matchID_drop hbit hcv
      rw [← hf] at hm
      have hlc : LabelTests (bitsOf id) f.str f.offset ↔ f.str <+: (bitsOf id).drop f.offset :=
        labelTests_covers (by rw [length_bitsOf]; exact hfit)
      simp only [PNode.search, hm]
      -- places that lack are behind the label
      have hout : ∀ e ∈ rowsOf P pl (.node u f one zero), RowOut (bitsOf id) P.length e →
          RowOut (bitsOf id) (P ++ f.str).length e := by
        rintro e he ⟨i, p, h1, h2, h3⟩
        refine ⟨i, p, ?_, h2, h3⟩
        apply Classical.byContradiction
        intro hn
        rw [List.length_append] at hn
        have e1 := (hkp e he (i - P.length) (by omega)).2
        rw [show P.length + (i - P.length) = i by omega, h2, Option.some.injEq] at e1
        rw [length_bitsOf] at h3
        omega
      by_cases hpre : f.str <+: (bitsOf id).drop f.offset
      · simp only [hpre, decide_true]
        have hsize : f.size = f.str.length := by rw [hf]; rfl
        rw [hsize]
        obtain ⟨hb1, hb0, -, hnone⟩ := C08_getNextBit id (f.offset + f.str.length)
        -- a row of a child
        have hsub : ∀ (t t' : PNode) (c c' : Char), c ≠ c' → (t ≠ .nil → t.str.head? = some c) →
            (t' ≠ .nil → t'.str.head? = some c') →
            (∀ e, e ∈ rowsOf P pl (.node u f one zero) ↔
              e = (P ++ f.str, pl ++ List.range' f.offset f.str.length, u) ∨
              e ∈ rowsOf (P ++ f.str) (pl ++ List.range' f.offset f.str.length) t ∨
              e ∈ rowsOf (P ++ f.str) (pl ++ List.range' f.offset f.str.length) t') →
            ∀ e ∈ rowsOf (P ++ f.str) (pl ++ List.range' f.offset f.str.length) t,
            (RowTests (bitsOf id) P.length (rowsOf P pl (.node u f one zero)) e ↔
              (bitsOf id)[f.offset + f.str.length]? = some c ∧
              RowTests (bitsOf id) (P ++ f.str).length
                (rowsOf (P ++ f.str) (pl ++ List.range' f.offset f.str.length) t) e) := by
          intro t t' c c' hcc ht ht' hT e he
          have hpc := rows_child ht he
          have hat : e.1[(P ++ f.str).length]? = some c := by
            obtain ⟨x, hx⟩ := hpc
            rw [← hx]
            simp
          unfold RowTests
          rw [hlab e ((hT e).mpr (Or.inr (Or.inl he))), hlc]
          constructor
          · rintro ⟨⟨-, h1⟩, h2⟩
            refine ⟨?_, h1, fun e' he' => h2 e' ((hT e').mpr (Or.inr (Or.inl he')))⟩
            have := h2 _ own ((List.prefix_append _ _).trans hpc) (fun hx => own_not_prefix _ _ (hx ▸ hpc))
            rw [hpa, hat] at this
            exact this
          · rintro ⟨h0, h1, h2⟩
            refine ⟨⟨hpre, h1⟩, ?_⟩
            intro e' he' hp hne
            rcases (hT e').mp he' with rfl | h | h
            · dsimp only
              rw [hpa, hat, h0]
            · exact h2 e' h hp hne
            · exact absurd ((rows_child ht' h).trans hp) (fun hx => not_prefix_other hcc hpc hx)
        have memT1 : ∀ e, e ∈ rowsOf P pl (.node u f one zero) ↔
            e = (P ++ f.str, pl ++ List.range' f.offset f.str.length, u) ∨
            e ∈ rowsOf (P ++ f.str) (pl ++ List.range' f.offset f.str.length) one ∨
            e ∈ rowsOf (P ++ f.str) (pl ++ List.range' f.offset f.str.length) zero := by
          intro e; rw [rowsOf, List.mem_cons, List.mem_append]
        have memT0 : ∀ e, e ∈ rowsOf P pl (.node u f one zero) ↔
            e = (P ++ f.str, pl ++ List.range' f.offset f.str.length, u) ∨
            e ∈ rowsOf (P ++ f.str) (pl ++ List.range' f.offset f.str.length) zero ∨
            e ∈ rowsOf (P ++ f.str) (pl ++ List.range' f.offset f.str.length) one := by
          intro e; rw [memT1, or_comm (b := e ∈ rowsOf _ _ zero)]
        have s1 := hsub one zero '1' '0' (by decide) hh1 hh0 memT1
        have s0 := hsub zero one '0' '1' (by decide) hh0 hh1 memT0
        have bit1 : (bitsOf id)[f.offset + f.str.length]? = some '1' ↔ getNextBit id (f.offset + f.str.length) = some '1' := by
          rw [hb1, bitsOf_getElem?]
          by_cases h : f.offset + f.str.length < 8 * id.length <;> simp [h]
        have bit0 : (bitsOf id)[f.offset + f.str.length]? = some '0' ↔ getNextBit id (f.offset + f.str.length) = some '0' := by
          rw [hb0, bitsOf_getElem?]
          by_cases h : f.offset + f.str.length < 8 * id.length <;> simp [h]
        have notown : ¬ RowOut (bitsOf id) P.length (P ++ f.str, pl ++ List.range' f.offset f.str.length, u) := by
          intro h
          obtain ⟨i, p, h1, h2, -⟩ := hout _ own h
          rw [List.getElem?_eq_none (by rw [hlen]; exact h1)] at h2
          simp at h2
        have outup : ∀ e, RowOut (bitsOf id) (P ++ f.str).length e → RowOut (bitsOf id) P.length e := by
          rintro e ⟨i, p, h1, h2⟩
          exact ⟨i, p, by rw [List.length_append] at h1; omega, h2⟩
        -- the reports of the node followed by those of a child
        have join : ∀ (t t' : PNode) (c : Char) (r : Option (List Str)), (t ≠ .nil → t.str.head? = some c) →
            (∀ e, e ∈ rowsOf P pl (.node u f one zero) ↔
              e = (P ++ f.str, pl ++ List.range' f.offset f.str.length, u) ∨
              e ∈ rowsOf (P ++ f.str) (pl ++ List.range' f.offset f.str.length) t ∨
              e ∈ rowsOf (P ++ f.str) (pl ++ List.range' f.offset f.str.length) t') →
            (∀ e ∈ rowsOf (P ++ f.str) (pl ++ List.range' f.offset f.str.length) t',
              ¬ RowTests (bitsOf id) P.length (rowsOf P pl (.node u f one zero)) e) →
            (((∃ e ∈ rowsOf (P ++ f.str) (pl ++ List.range' f.offset f.str.length) t,
              RowTests (bitsOf id) P.length (rowsOf P pl (.node u f one zero)) e ∧ RowOut (bitsOf id) (P ++ f.str).length e) →
              r = none) ∧
             ((¬ ∃ e ∈ rowsOf (P ++ f.str) (pl ++ List.range' f.offset f.str.length) t,
              RowTests (bitsOf id) P.length (rowsOf P pl (.node u f one zero)) e ∧ RowOut (bitsOf id) (P ++ f.str).length e) →
              ∃ hits : FlatSubs, (hits.map Prod.fst).Pairwise (fun a b => a <+: b ∧ a ≠ b) ∧
              (∀ m w, (m, w) ∈ hits ↔ w ≠ [] ∧ ∃ l, (m, l, w) ∈ rowsOf (P ++ f.str) (pl ++ List.range' f.offset f.str.length) t ∧
                RowTests (bitsOf id) P.length (rowsOf P pl (.node u f one zero)) (m, l, w)) ∧
              r = some (hits.map Prod.snd))) →
            ((∃ e ∈ rowsOf P pl (.node u f one zero), RowTests (bitsOf id) P.length (rowsOf P pl (.node u f one zero)) e ∧
                RowOut (bitsOf id) P.length e) → r.map ((if u.length ≠ 0 then [u] else []) ++ ·) = none) ∧
            ((¬ ∃ e ∈ rowsOf P pl (.node u f one zero), RowTests (bitsOf id) P.length (rowsOf P pl (.node u f one zero)) e ∧
                RowOut (bitsOf id) P.length e) →
              ∃ hits : FlatSubs, (hits.map Prod.fst).Pairwise (fun a b => a <+: b ∧ a ≠ b) ∧
                (∀ m w, (m, w) ∈ hits ↔ w ≠ [] ∧ ∃ l, (m, l, w) ∈ rowsOf P pl (.node u f one zero) ∧
                  RowTests (bitsOf id) P.length (rowsOf P pl (.node u f one zero)) (m, l, w)) ∧
                r.map ((if u.length ≠ 0 then [u] else []) ++ ·) = some (hits.map Prod.snd)) := by
          rintro t t' c r ht hT hno ⟨g0, g⟩
          constructor
          · rintro ⟨e, he, h1, h2⟩
            rcases (hT e).mp he with rfl | h | h
            · exact absurd h2 notown
            · rw [g0 ⟨e, h, h1, hout e he h2⟩]; rfl
            · exact absurd h1 (hno e h)
          · intro hnp
            obtain ⟨hits, g1, g2, rfl⟩ := g (by
              rintro ⟨e, he, h1, h2⟩
              exact hnp ⟨e, (hT e).mpr (Or.inr (Or.inl he)), h1, outup e h2⟩)
            refine ⟨(if u.length ≠ 0 then [(P ++ f.str, u)] else []) ++ hits, ?_, ?_, ?_⟩
            · rw [List.map_append, List.pairwise_append]
              refine ⟨?_, g1, ?_⟩
              · split <;> simp
              · intro a ha b hb
                obtain ⟨⟨m, w⟩, hmw, rfl⟩ := List.mem_map.mp hb
                obtain ⟨-, l, hrow, -⟩ := (g2 m w).mp hmw
                have hpc := rows_child ht hrow
                have : a = P ++ f.str := by
                  split at ha <;> simp at ha
                  exact ha
                subst this
                exact ⟨(List.prefix_append _ _).trans hpc, fun hx => own_not_prefix _ _ (hx ▸ hpc)⟩
            · intro m w
              rw [List.mem_append, g2]
              constructor
              · rintro (h | ⟨h1, l, h2, h3⟩)
                · split at h
                  · rename_i hu
                    simp at h
                    obtain ⟨rfl, rfl⟩ := h
                    exact ⟨by intro h; simp [h] at hu, _, own, hownp (hlc.mpr hpre)⟩
                  · simp at h
                · exact ⟨h1, l, (hT _).mpr (Or.inr (Or.inl h2)), h3⟩
              · rintro ⟨h1, l, h2, h3⟩
                rcases (hT _).mp h2 with h | h | h
                · simp only [Prod.mk.injEq] at h
                  obtain ⟨rfl, rfl, rfl⟩ := h
                  left
                  rw [if_pos (by simpa using h1)]
                  simp
                · exact Or.inr ⟨h1, l, h, h3⟩
                · exact absurd h3 (hno _ h)
            · split <;> simp
        cases hnb : getNextBit id (f.offset + f.str.length) with
        | none => exact absurd (hnone.mp hnb) (by omega)
        | some nb =>
          simp only
          by_cases h1 : nb = '1'
          · subst h1
            have no0 : ∀ e ∈ rowsOf (P ++ f.str) (pl ++ List.range' f.offset f.str.length) zero,
                ¬ RowTests (bitsOf id) P.length (rowsOf P pl (.node u f one zero)) e := by
              intro e he hp
              have := ((s0 e he).mp hp).1
              rw [bit0, hnb] at this
              simp at this
            by_cases ho : one = .nil
            · rw [if_neg (fun h => h.2 ho), if_neg (fun h => absurd h.1 (by decide))]
              have := join one zero '1' (some []) hh1 memT1 no0 ⟨by
                rintro ⟨e, he, -⟩; subst ho; simp [rowsOf] at he, fun _ => ⟨[], List.Pairwise.nil, by
                intro m w
                subst ho
                simp [rowsOf], rfl⟩⟩
              simpa using this
            · rw [if_pos ⟨rfl, ho⟩]
              obtain ⟨i0, i⟩ := search_rows id hid one (P ++ f.str) (pl ++ List.range' f.offset f.str.length)
                ho hw1 hlen (Or.inl (fun h0 => by have := hh1 ho; rw [h0] at this; simp at this))
              refine join one zero '1' (one.search id) hh1 memT1 no0 ⟨?_, ?_⟩
              · rintro ⟨e, he, a, b⟩
                exact i0 ⟨e, he, ((s1 _ he).mp a).2, b⟩
              · intro hnp
                obtain ⟨hits, i1, i2, i3⟩ := i (by
                  rintro ⟨e, he, a, b⟩
                  exact hnp ⟨e, he, (s1 _ he).mpr ⟨bit1.mpr hnb, a⟩, b⟩)
                refine ⟨hits, i1, ?_, i3⟩
                intro m w
                rw [i2]
                constructor
                · rintro ⟨a, l, b, c⟩; exact ⟨a, l, b, (s1 _ b).mpr ⟨bit1.mpr hnb, c⟩⟩
                · rintro ⟨a, l, b, c⟩; exact ⟨a, l, b, ((s1 _ b).mp c).2⟩
          · have no1 : ∀ e ∈ rowsOf (P ++ f.str) (pl ++ List.range' f.offset f.str.length) one,
                ¬ RowTests (bitsOf id) P.length (rowsOf P pl (.node u f one zero)) e := by
              intro e he hp
              have := ((s1 e he).mp hp).1
              rw [bit1, hnb] at this
              exact h1 (by simpa using this)
            rw [if_neg (fun h => h1 h.1)]
            by_cases h0 : nb = '0' ∧ zero ≠ .nil
            · obtain ⟨rfl, hz⟩ := h0
              rw [if_pos ⟨rfl, hz⟩]
              obtain ⟨i0, i⟩ := search_rows id hid zero (P ++ f.str) (pl ++ List.range' f.offset f.str.length)
                hz hw0 hlen (Or.inl (fun h0 => by have := hh0 hz; rw [h0] at this; simp at this))
              refine join zero one '0' (zero.search id) hh0 memT0 no1 ⟨?_, ?_⟩
              · rintro ⟨e, he, a, b⟩
                exact i0 ⟨e, he, ((s0 _ he).mp a).2, b⟩
              · intro hnp
                obtain ⟨hits, i1, i2, i3⟩ := i (by
                  rintro ⟨e, he, a, b⟩
                  exact hnp ⟨e, he, (s0 _ he).mpr ⟨bit0.mpr hnb, a⟩, b⟩)
                refine ⟨hits, i1, ?_, i3⟩
                intro m w
                rw [i2]
                constructor
                · rintro ⟨a, l, b, c⟩; exact ⟨a, l, b, (s0 _ b).mpr ⟨bit0.mpr hnb, c⟩⟩
                · rintro ⟨a, l, b, c⟩; exact ⟨a, l, b, ((s0 _ b).mp c).2⟩
            · rw [if_neg h0]
              have no0 : ∀ e ∈ rowsOf (P ++ f.str) (pl ++ List.range' f.offset f.str.length) zero,
                  ¬ RowTests (bitsOf id) P.length (rowsOf P pl (.node u f one zero)) e := by
                intro e he hp
                have := ((s0 _ he).mp hp).1
                rw [bit0, hnb] at this
                refine h0 ⟨by simpa using this, ?_⟩
                rintro rfl
                simp [rowsOf] at he
              have := join zero one '0' (some []) hh0 memT0 no1 ⟨by
                rintro ⟨e, he, a, -⟩; exact absurd a (no0 e he), fun _ => ⟨[], List.Pairwise.nil, by
                intro m w
                simp only [List.not_mem_nil, false_iff]
                rintro ⟨-, l, hrow, hp⟩
                exact no0 _ hrow hp, rfl⟩⟩
              simpa using this
      · simp only [hpre, decide_false]
        have hno : ∀ e ∈ rowsOf P pl (.node u f one zero),
            ¬ RowTests (bitsOf id) P.length (rowsOf P pl (.node u f one zero)) e := by
          intro e he h
          exact hpre (hlc.mp ((hlab e he).mp h.1).1)
        refine ⟨fun ⟨e, he, h, _⟩ => absurd h (hno e he), fun _ => ⟨[], List.Pairwise.nil, ?_, rfl⟩⟩
        intro m w
        simp only [List.not_mem_nil, false_iff]
        rintro ⟨-, l, hrow, hp⟩
        exact hno _ hrow hp
    · -- the ID ends within the label
      have hs : f.str ≠ [] := by
        rcases hent with h | h
        · exact h
        · intro h0
          refine hcv ⟨?_, ?_⟩
          · have := h.2; simp only [offs] at this; rw [h0]; simp; omega
          · have := h.2; simp only [offs] at this; omega
      have hpos := List.length_pos_iff.mpr hs
      have hgt : 8 * id.length < f.offset + f.str.length := by
        apply Classical.byContradiction
        intro hn
        exact hcv ⟨by omega, by omega⟩
      obtain ⟨m1, m2⟩ := C02_short_id_exact f.str hbit.filterStr f.offset id hcv
      rw [← hf, ← labelTests_carries hbit] at m1 m2
      simp only [PNode.search]
      by_cases hlt : LabelTests (bitsOf id) f.str f.offset
      · rw [m1.mpr hlt]
        refine ⟨fun _ => rfl, fun h => absurd ⟨_, own, hownp hlt, ?_⟩ h⟩
        refine ⟨P.length + (f.str.length - 1), f.offset + (f.str.length - 1), by omega, (hkp _ own _ (by omega)).2, ?_⟩
        rw [length_bitsOf]
        omega
      · rw [m2.mpr hlt]
        have hno : ∀ e ∈ rowsOf P pl (.node u f one zero),
            ¬ RowTests (bitsOf id) P.length (rowsOf P pl (.node u f one zero)) e := by
          intro e he h
          exact hlt ((hlab e he).mp h.1).1
        refine ⟨fun ⟨e, he, h, _⟩ => absurd h (hno e he), fun _ => ⟨[], List.Pairwise.nil, ?_, rfl⟩⟩
        intro m w
        simp only [List.not_mem_nil, false_iff]
        rintro ⟨-, l, hrow, hp⟩
        exact hno _ hrow hp
termination_by t => t

theorem search_empty : ∀ (t : PNode), Skew t → t.search [] = none
  | .nil, _ => rfl
  | .node u f one zero, ⟨hbit, hf, _⟩ => by
    have hcv : ¬ Covers f.str f.offset [] := by rintro ⟨-, h⟩; simp at h
    obtain ⟨m1, -⟩ := C02_short_id_exact f.str hbit.filterStr f.offset [] hcv
    rw [← hf] at m1
    rw [PNode.search, m1.mpr (by intro i c _ _ h; simp at h)]

theorem placed_search {t : PNode} {v : PlacedTrie} (h : ShowsPlaced t v) (id : List Byte) :
    (v.Overruns id → t.search id = none) ∧
    (¬ v.Overruns id → ∃ uris, v.Reports id uris ∧ t.search id = some uris) := by
  have h' := h
  obtain ⟨h1, h2, h3, h4⟩ := h'
  by_cases hid : id = []
  · subst hid
    exact ⟨fun _ => search_empty t h2, fun hn => absurd (Or.inl rfl) hn⟩
  have hpos : 0 < 8 * id.length := by have := List.length_pos_iff.mpr hid; omega
  obtain ⟨g0, g⟩ := search_rows id hid t [] [] h1 h2 rfl (Or.inr ⟨by rw [h3]; rfl, by rw [h3]; exact hpos⟩)
  have forks : ∀ m, (∀ e' ∈ rowsOf [] [] t, e'.1 <+: m → e'.1 ≠ m → (bitsOf id)[placeAfter e'.2.1]? = m[e'.1.length]?) ↔
      ∀ n ∈ v.nodes, n <+: m → n ≠ m → (bitsOf id)[placeAfter (v.place n)]? = m[n.length]? := by
    intro m
    constructor
    · intro hx n hn; exact hx _ (h.row hn)
    · intro hx e he
      obtain ⟨x1, x2⟩ := (h.mem e).mp he
      have := hx _ x1
      rw [x2]
      exact this
  have tests : ∀ m, RowTests (bitsOf id) ([] : Str).length (rowsOf [] [] t) (m, v.place m, v.stored m) ↔
      (∀ (i p : Nat), (v.place m)[i]? = some p → p < 8 * id.length → (bitsOf id)[p]? = m[i]?) ∧
      (∀ n ∈ v.nodes, n <+: m → n ≠ m → (bitsOf id)[placeAfter (v.place n)]? = m[n.length]?) := by
    intro m
    unfold RowTests
    simp only [List.length_nil, Nat.zero_le, forall_const, length_bitsOf]
    exact and_congr Iff.rfl (forks m)
  have outs : ∀ m, RowOut (bitsOf id) ([] : Str).length (m, v.place m, v.stored m) ↔ ∃ p ∈ v.place m, 8 * id.length ≤ p := by
    intro m
    unfold RowOut
    simp only [List.length_nil, Nat.zero_le, true_and, length_bitsOf]
    constructor
    · rintro ⟨i, p, hp, hle⟩; exact ⟨p, List.mem_of_getElem? hp, hle⟩
    · rintro ⟨p, hp, hle⟩
      obtain ⟨i, hi⟩ := List.mem_iff_getElem?.mp hp
      exact ⟨i, p, hi, hle⟩
  have hex : (∃ e ∈ rowsOf [] [] t, RowTests (bitsOf id) ([] : Str).length (rowsOf [] [] t) e ∧
      RowOut (bitsOf id) ([] : Str).length e) ↔ v.Overruns id := by
    constructor
    · rintro ⟨e, he, a, b⟩
      obtain ⟨x1, x2⟩ := (h.mem e).mp he
      rw [x2] at a b
      exact Or.inr ⟨e.1, x1, ((tests _).mp a).1, ((tests _).mp a).2, (outs _).mp b⟩
    · rintro (h0 | ⟨m, hm, a, b, c⟩)
      · exact absurd h0 hid
      · exact ⟨_, h.row hm, (tests m).mpr ⟨a, b⟩, (outs m).mpr c⟩
  rw [hex] at g0 g
  refine ⟨g0, fun hn => ?_⟩
  obtain ⟨hits, g1, g2, g3⟩ := g hn
  refine ⟨_, ⟨hits, g1, ?_, rfl⟩, g3⟩
  intro m u
  rw [g2]
  constructor
  · rintro ⟨hu, l, hrow, hpass⟩
    obtain ⟨x1, rfl, rfl⟩ := (h4 _ _ _).mp hrow
    obtain ⟨a, b⟩ := (tests m).mp hpass
    refine ⟨x1, rfl, hu, ?_, b⟩
    intro i p hp
    apply a i p hp
    apply Classical.byContradiction
    intro hge
    exact hn (Or.inr ⟨m, x1, a, b, p, List.mem_of_getElem? hp, by omega⟩)
  · rintro ⟨x1, rfl, hu, a, b⟩
    exact ⟨hu, _, h.row x1, (tests m).mpr ⟨fun i p hp _ => a i p hp, b⟩⟩

end Gosstrak
