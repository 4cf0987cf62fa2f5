import Verif.Proofs.Composition
import Verif.Props.Filter

namespace Gosstrak

/-! ## C63 -/

/-- The filters of a list of strings placed at bit positions. -/
def filtersOf (fs : List (Str × Nat)) : List FilterObject := fs.map fun e => newFilter e.1 e.2

theorem filtersOf_good {fs : List (Str × Nat)} (hs : ∀ e ∈ fs, IsFilterStr e.1) :
    ∀ f ∈ filtersOf fs, GoodFilter f := by
  intro f hf
  obtain ⟨e, he, rfl⟩ := List.mem_map.mp hf
  exact newFilter_good (hs e he) e.2

/-- Filters with a byte in common are composed: the composite requires of a bit exactly what all of
    them require of it, every filter has one child under its string, and nothing else is in the map. -/
theorem C63_composite (fs : List (Str × Nat)) (hne : fs ≠ []) (hs : ∀ e ∈ fs, IsFilterStr e.1)
    (k : Nat) (hk : ∀ e ∈ fs, Touches e.1 e.2 k) :
    ∃ c, newComposition (filtersOf fs) = some c ∧
      (∀ p b, required c.filter c.offset p = some b ↔ ∀ e ∈ fs, required e.1 e.2 p = some b) ∧
      (∀ q, (∃ f, mapGet c.children q = some f) ↔ ∃ o, (q, o) ∈ fs) := by
  have hg := filtersOf_good hs
  obtain ⟨head, tail, e3, e4, e5, -, h⟩ := newComposition_spec (filtersOf fs) (by simpa [filtersOf]) hg
  have hin : ∀ f ∈ filtersOf fs, f.byteOffset ≤ k ∧ k < f.byteOffset + f.byteSize := by
    intro f hf
    obtain ⟨e, he, rfl⟩ := List.mem_map.mp hf
    exact (touches_iff (hs e he) e.2 k).mp (hk e he)
  have hle : head ≤ tail := by
    obtain ⟨f, hf, ef⟩ := e4
    obtain ⟨g, hgm, eg⟩ := e5
    have := hin f hf
    have := hin g hgm
    omega
  obtain ⟨cf, c1, c2, c3, c4⟩ := h hle
  refine ⟨_, c4, ?_, ?_⟩
  · intro p b
    dsimp only
    rw [c3 p b]
    constructor
    · intro h e he
      rw [← newFilter_fix (hs e he)]
      exact h _ (List.mem_map.mpr ⟨e, he, rfl⟩)
    · intro h f hf
      obtain ⟨e, he, rfl⟩ := List.mem_map.mp hf
      rw [newFilter_fix (hs e he)]
      exact h e he
  · intro q
    dsimp only
    rw [mapGet_foldl_set]
    constructor
    · rintro ⟨f, hf⟩
      split at hf
      · rename_i g hg
        have hm := List.mem_of_find?_eq_some hg
        have hq := List.find?_some hg
        rw [List.mem_reverse] at hm
        obtain ⟨e, he, rfl⟩ := List.mem_map.mp hm
        rw [(newFilter_spec (hs e he) e.2).1] at hq
        simp only [decide_eq_true_eq] at hq
        subst hq
        exact ⟨e.2, he⟩
      · simp [mapGet] at hf
    · rintro ⟨o, ho⟩
      cases hfind : (filtersOf fs).reverse.find? (fun e => decide (e.str = q)) with
      | some g => exact ⟨_, rfl⟩
      | none =>
        exfalso
        have := List.find?_eq_none.mp hfind (newFilter q o)
          (by rw [List.mem_reverse]; exact List.mem_map.mpr ⟨(q, o), ho, rfl⟩)
        exact this (by simp [(newFilter_spec (hs _ ho) o).1])

/-- The child stored under a string is that of the last entry with this string. -/
theorem child_of_last {α : Type} {fs : List (Str × Nat)} (hs : ∀ e ∈ fs, IsFilterStr e.1) {s : Str}
    {o : Nat} (hl : LastAt fs s o) (val : FilterObject → α) :
    mapGet ((filtersOf fs).foldl (fun m f => mapSet m f.str (val f)) []) s =
      some (val (newFilter s o)) := by
  obtain ⟨l1, l2, rfl, h⟩ := hl
  rw [mapGet_foldl_set]
  have e2 : (l2.map fun e => newFilter e.1 e.2).reverse.find? (fun f => decide (f.str = s)) = none := by
    rw [List.find?_eq_none]
    intro f hf
    rw [List.mem_reverse] at hf
    obtain ⟨⟨t, o'⟩, he, rfl⟩ := List.mem_map.mp hf
    rw [(newFilter_spec (hs (t, o') (by simp [he])) o').1]
    simp only [decide_eq_true_eq]
    rintro rfl
    exact h _ he
  unfold filtersOf
  rw [List.map_append, List.map_cons, List.reverse_append, List.reverse_cons, List.find?_append,
    List.find?_append, e2]
  simp [(newFilter_spec (hs (s, o) (by simp)) o).1]

/-- Of filters with a byte in common, let `(s, o)` be the last one with its string. It matches an ID
    exactly when both the composite and its child match; the child requires nothing that the filter
    does not require; and it repeats no byte that is the same in the composite. -/
theorem C63_equivalent (fs : List (Str × Nat)) (hs : ∀ e ∈ fs, IsFilterStr e.1)
    (k : Nat) (hk : ∀ e ∈ fs, Touches e.1 e.2 k) (s : Str) (o : Nat) (hl : LastAt fs s o) :
    ∃ c t o', newComposition (filtersOf fs) = some c ∧
      mapGet c.children s = some (newFilter t o') ∧ IsFilterStr t ∧
      (∀ id, Covers s o id → Covers c.filter c.offset id ∧ Covers t o' id ∧
        ((newFilter s o).matchID id = some true ↔
          (newFilter c.filter c.offset).matchID id = some true ∧
          (newFilter t o').matchID id = some true)) ∧
      (∀ p b, required t o' p = some b → required s o p = some b) ∧
      (∀ j, Touches c.filter c.offset j → (∀ p, p / 8 = j → required s o p = required c.filter c.offset p) →
        ∀ p, p / 8 = j → required t o' p = none) := by
  have hm : (s, o) ∈ fs := by obtain ⟨l1, l2, rfl, -⟩ := hl; simp
  have hne : fs ≠ [] := by intro h; rw [h] at hm; simp at hm
  have hg := filtersOf_good hs
  obtain ⟨head, tail, e3, e4, e5, -, h⟩ := newComposition_spec (filtersOf fs) (by simpa [filtersOf]) hg
  have hin : ∀ f ∈ filtersOf fs, f.byteOffset ≤ k ∧ k < f.byteOffset + f.byteSize := by
    intro f hf
    obtain ⟨e, he, rfl⟩ := List.mem_map.mp hf
    exact (touches_iff (hs e he) e.2 k).mp (hk e he)
  have hlt : head < tail := by
    obtain ⟨f, hf, ef⟩ := e4
    obtain ⟨g, hgm, eg⟩ := e5
    have := hin f hf
    have := hin g hgm
    omega
  obtain ⟨cf, c1, c2, c3, c4⟩ := h (by omega)
  have hfm : newFilter s o ∈ filtersOf fs := List.mem_map.mpr ⟨(s, o), hm, rfl⟩
  have hgf := hg _ hfm
  have hs0 : IsFilterStr s := hs _ hm
  obtain ⟨b1, b2⟩ := e3 _ hfm
  obtain ⟨hstr, -, -, hbo, hsz, hlf, hlm, -, -⟩ := newFilter_spec hs0 o
  obtain ⟨-, -, -, hbo', hsz', hlf', hlm', -, -⟩ := newFilter_spec c1 (head * 8)
  have hfb : filterBytes (head * 8 % 8) cf.length = tail - head := by
    rw [c2]; unfold filterBytes; split <;> omega
  -- the child is the one of this filter
  have hchild : mapGet ((filtersOf fs).foldl (fun m f => mapSet m f.str
      (newFilter (childStr (newFilter cf (head * 8)) f head tail)
        (if f.byteOffset < tail then f.byteOffset * 8 else 0))) []) s =
      some (newFilter (childStr (newFilter cf (head * 8)) (newFilter s o) head tail)
        ((newFilter s o).byteOffset * 8)) := by
    rw [child_of_last hs hl, if_pos (by omega)]
  have hreq : ∀ p b, required (childStr (newFilter cf (head * 8)) (newFilter s o) head tail)
      ((newFilter s o).byteOffset * 8) p = some b → required s o p = some b := by
    intro p b hb
    have hc := childStr_required (cf := newFilter cf (head * 8)) hgf head tail p
    rw [← newFilter_fix hs0]
    by_cases hsame : SameByte (newFilter cf (head * 8)) (newFilter s o) head tail
        (p / 8 - (newFilter s o).byteOffset)
    · by_cases hp : 8 * (newFilter s o).byteOffset ≤ p
      · rw [hc.1 hsame hp] at hb
        simp at hb
      · unfold required at hb
        rw [if_neg (by omega)] at hb
        simp at hb
    · rw [hc.2 hsame] at hb
      exact hb
  have hbits : ∀ (f : FilterObject) (i j : Nat), j < 8 → GoodFilter f → i < f.byteSize →
      f.fix (8 * (f.byteOffset + i) + j) =
        if (f.byteMask[i]?.getD 0#8).getMsbD j then none
        else some ((f.byteFilter[i]?.getD 0#8).getMsbD j) := by
    intro f i j hj _ hi
    unfold FilterObject.fix
    rw [if_pos (by omega), show 8 * (f.byteOffset + i) + j - 8 * f.byteOffset = 8 * i + j by omega,
      idBit_getD _ _ hj, idBit_getD _ _ hj]
  refine ⟨_, _, _, c4, hchild, childStr_filterStr hgf _ _, ?_, hreq, ?_⟩
  · intro id hid
    have hcb := covers_bytes hid
    have cov1 : Covers cf (head * 8) id := ⟨by rw [c2]; omega, by omega⟩
    have cov2 : Covers (childStr (newFilter cf (head * 8)) (newFilter s o) head tail)
        ((newFilter s o).byteOffset * 8) id := by
      have := hgf.pos
      exact ⟨by rw [childStr_length]; omega, by omega⟩
    refine ⟨cov1, cov2, ?_⟩
    rw [(C01_match_iff_carries s hs0 o id hid).1, (C01_match_iff_carries cf c1 _ id cov1).1,
      (C01_match_iff_carries _ (childStr_filterStr hgf _ _) _ id cov2).1,
      carries_iff_required, carries_iff_required, carries_iff_required]
    constructor
    · intro hall
      refine ⟨fun p b hb => ?_, fun p b hb => hall p b (hreq p b hb)⟩
      have := (c3 p b).mp hb _ hfm
      rw [newFilter_fix hs0] at this
      exact hall p b this
    · rintro ⟨h1, h2⟩ p b hb
      have hc := childStr_required (cf := newFilter cf (head * 8)) hgf head tail p
      by_cases hsame : SameByte (newFilter cf (head * 8)) (newFilter s o) head tail
          (p / 8 - (newFilter s o).byteOffset)
      · apply h1 p b
        rw [← newFilter_fix hs0] at hb
        have hp : 8 * (newFilter s o).byteOffset ≤ p ∧
            p < 8 * ((newFilter s o).byteOffset + (newFilter s o).byteSize) := by
          unfold FilterObject.fix at hb
          split at hb
          · assumption
          · simp at hb
        rw [← newFilter_fix c1, ← hb]
        obtain ⟨s1, s2, s3, s4⟩ := hsame
        have f1 := hbits (newFilter s o) (p / 8 - (newFilter s o).byteOffset) (p % 8) (by omega) hgf
          (by omega)
        have f2 := hbits (newFilter cf (head * 8)) (p / 8 - head) (p % 8) (by omega)
          (newFilter_good c1 _) (by omega)
        rw [show 8 * ((newFilter s o).byteOffset + (p / 8 - (newFilter s o).byteOffset)) + p % 8 = p by
          omega, ← s3, ← s4] at f1
        rw [hbo', show 8 * (head * 8 / 8 + (p / 8 - head)) + p % 8 = p by omega] at f2
        rw [f1, f2, show (newFilter s o).byteOffset + (p / 8 - (newFilter s o).byteOffset) - head =
          p / 8 - head by omega]
      · apply h2 p b
        rw [hc.2 hsame, newFilter_fix hs0]
        exact hb
  · intro j hj hsame p hp
    dsimp only at hj hsame
    have ht := (touches_iff c1 (head * 8) j).mp hj
    have hc := childStr_required (cf := newFilter cf (head * 8)) hgf head tail p
    refine hc.1 ?_ (by omega)
    have hjs : p / 8 - (newFilter s o).byteOffset < (newFilter s o).byteSize := by omega
    have hjc : p / 8 - head < (newFilter cf (head * 8)).byteSize := by omega
    have key : ∀ i, i < 8 →
        ((newFilter cf (head * 8)).byteMask[p / 8 - head]?.getD 0#8).getMsbD i =
          ((newFilter s o).byteMask[p / 8 - (newFilter s o).byteOffset]?.getD 0#8).getMsbD i ∧
        ((newFilter cf (head * 8)).byteFilter[p / 8 - head]?.getD 0#8).getMsbD i =
          ((newFilter s o).byteFilter[p / 8 - (newFilter s o).byteOffset]?.getD 0#8).getMsbD i := by
      intro i hi
      have f1 := hbits (newFilter s o) (p / 8 - (newFilter s o).byteOffset) i hi hgf hjs
      have f2 := hbits (newFilter cf (head * 8)) (p / 8 - head) i hi (newFilter_good c1 _) hjc
      have m1 := hgf.masked (8 * (p / 8 - (newFilter s o).byteOffset) + i) (by omega)
      have m2 := (newFilter_good c1 (head * 8)).masked (8 * (p / 8 - head) + i) (by omega)
      rw [idBit_getD _ _ hi, idBit_getD _ _ hi] at m1 m2
      have e := hsame (8 * (p / 8) + i) (by omega)
      rw [← newFilter_fix hs0, ← newFilter_fix c1] at e
      rw [show 8 * ((newFilter s o).byteOffset + (p / 8 - (newFilter s o).byteOffset)) + i =
        8 * (p / 8) + i by omega] at f1
      rw [hbo', show 8 * (head * 8 / 8 + (p / 8 - head)) + i = 8 * (p / 8) + i by omega] at f2
      rw [f1, f2] at e
      revert e m1 m2
      generalize ((newFilter s o).byteMask[p / 8 - (newFilter s o).byteOffset]?.getD 0#8).getMsbD i = a1
      generalize ((newFilter s o).byteFilter[p / 8 - (newFilter s o).byteOffset]?.getD 0#8).getMsbD i = a2
      generalize ((newFilter cf (head * 8)).byteMask[p / 8 - head]?.getD 0#8).getMsbD i = a3
      generalize ((newFilter cf (head * 8)).byteFilter[p / 8 - head]?.getD 0#8).getMsbD i = a4
      cases a1 <;> cases a2 <;> cases a3 <;> cases a4 <;> simp
    have conv : ∀ (l m : List Byte) (a b : Nat), a < l.length → b < m.length →
        (∀ i, i < 8 → (l[a]?.getD 0#8).getMsbD i = (m[b]?.getD 0#8).getMsbD i) → l[a]? = m[b]? := by
      intro l m a b ha hb h
      rw [List.getElem?_eq_getElem ha, List.getElem?_eq_getElem hb] at h ⊢
      congr 1
      exact (byte_eq_iff _ _).mpr h
    have ej : (newFilter s o).byteOffset + (p / 8 - (newFilter s o).byteOffset) - head = p / 8 - head := by
      omega
    refine ⟨by omega, by omega, ?_, ?_⟩
    · rw [ej]
      exact conv _ _ _ _ (by omega) (by omega) fun i hi => (key i hi).2
    · rw [ej]
      exact conv _ _ _ _ (by omega) (by omega) fun i hi => (key i hi).1

-- composition_test.go:24-37 and 38-50
example : newComposition (filtersOf [("0011000011".toList, 8), ("1100110011".toList, 6)]) =
    some ⟨"001100xx".toList, 8, [("0011000011".toList, newFilter "0011000011xxxxxx".toList 8),
      ("1100110011".toList, newFilter "xxxxxx1100110011".toList 0)]⟩ := by decide +kernel
example : newComposition (filtersOf [("0011000011".toList, 0), ("0011001111".toList, 0)]) =
    some ⟨"001100xx11xxxxxx".toList, 0, [("0011000011".toList, newFilter "00110000xxxxxxxx".toList 0),
      ("0011001111".toList, newFilter "00110011xxxxxxxx".toList 0)]⟩ := by decide +kernel
example : ∀ e ∈ [("0011000011".toList, 8), ("1100110011".toList, 6)], IsFilterStr e.1 ∧
    ∃ i, i < e.1.length ∧ (e.2 + i) / 8 = 1 := by
  intro e he
  simp only [List.mem_cons, List.not_mem_nil, or_false] at he
  rcases he with rfl | rfl
  · exact ⟨by decide, 0, by decide⟩
  · exact ⟨by decide, 2, by decide⟩

/-- The function panics exactly for no filters at all and when a whole byte lies between the end of
    one filter and the start of another. -/
theorem C63_crash_iff (fs : List (Str × Nat)) (hs : ∀ e ∈ fs, IsFilterStr e.1) :
    newComposition (filtersOf fs) = none ↔ fs = [] ∨
      ∃ e ∈ fs, ∃ e' ∈ fs, ∃ k, (∀ j, Touches e.1 e.2 j → j < k) ∧ ∀ j, Touches e'.1 e'.2 j → k < j := by
  by_cases hne : fs = []
  · subst hne
    exact ⟨fun _ => Or.inl rfl, fun _ => rfl⟩
  have hg := filtersOf_good hs
  obtain ⟨head, tail, e3, e4, e5, h1, h2⟩ :=
    newComposition_spec (filtersOf fs) (by simpa [filtersOf]) hg
  simp only [hne, false_or]
  constructor
  · intro hn
    have hlt : tail < head := by
      apply Classical.byContradiction
      intro h
      obtain ⟨cf, -, -, -, c⟩ := h2 (by omega)
      rw [c] at hn
      simp at hn
    obtain ⟨f, hf, ef⟩ := e4
    obtain ⟨g, hgm, eg⟩ := e5
    obtain ⟨e', he', rfl⟩ := List.mem_map.mp hf
    obtain ⟨e, he, rfl⟩ := List.mem_map.mp hgm
    refine ⟨e, he, e', he', tail, fun j hj => ?_, fun j hj => ?_⟩
    · have := (touches_iff (hs e he) e.2 j).mp hj
      omega
    · have := (touches_iff (hs e' he') e'.2 j).mp hj
      omega
  · rintro ⟨e, he, e', he', k, a, b⟩
    apply h1
    have m : newFilter e.1 e.2 ∈ filtersOf fs := List.mem_map.mpr ⟨e, he, rfl⟩
    have m' : newFilter e'.1 e'.2 ∈ filtersOf fs := List.mem_map.mpr ⟨e', he', rfl⟩
    have p := (hg _ m).pos
    have p' := (hg _ m').pos
    have q := e3 _ m
    have q' := e3 _ m'
    have r := a _ ((touches_iff (hs e he) e.2
      ((newFilter e.1 e.2).byteOffset + (newFilter e.1 e.2).byteSize - 1)).mpr (by omega))
    have r' := b _ ((touches_iff (hs e' he') e'.2 (newFilter e'.1 e'.2).byteOffset).mpr (by omega))
    omega

example : newComposition (filtersOf [("0011".toList, 0), ("1100".toList, 16)]) = none := by
  decide +kernel

/-- Filters without a common byte for which the function does not panic: the composite is empty. The
    child of a filter is the filter itself as long as another one starts in a later byte; the child of
    one that starts in the last byte is the filter moved down to the first byte of the ID. -/
theorem C63_apart (fs : List (Str × Nat)) (hs : ∀ e ∈ fs, IsFilterStr e.1)
    (hno : ¬ ∃ k, ∀ e ∈ fs, Touches e.1 e.2 k) (c : Composition)
    (hc : newComposition (filtersOf fs) = some c) :
    c.filter = [] ∧ (∃ e ∈ fs, c.offset = e.2 / 8 * 8) ∧
    ∀ s o, LastAt fs s o → ∃ t, IsFilterStr t ∧
      ((∃ e ∈ fs, o / 8 < e.2 / 8) → mapGet c.children s = some (newFilter t (o / 8 * 8)) ∧
        (∀ id, Covers s o id → Covers t (o / 8 * 8) id) ∧
        ∀ p, required t (o / 8 * 8) p = required s o p) ∧
      ((∀ e ∈ fs, e.2 / 8 ≤ o / 8) → mapGet c.children s = some (newFilter t 0) ∧ 0 < o / 8 ∧
        (∀ id, Covers s o id → Covers t 0 id) ∧
        ∀ p, required t 0 p = required s (o % 8) p) := by
  have hne : fs ≠ [] := by
    rintro rfl
    exact hno ⟨0, by simp⟩
  have hg := filtersOf_good hs
  obtain ⟨head, tail, e3, e4, e5, h1, h2⟩ :=
    newComposition_spec (filtersOf fs) (by simpa [filtersOf]) hg
  have hle : head ≤ tail := by
    apply Classical.byContradiction
    intro h
    rw [h1 (by omega)] at hc
    simp at hc
  have hge : tail ≤ head := by
    apply Classical.byContradiction
    intro h
    refine hno ⟨head, fun e he => ?_⟩
    rw [touches_iff (hs e he)]
    have := e3 _ (List.mem_map.mpr ⟨e, he, rfl⟩)
    omega
  obtain ⟨cf, c1, c2, c3, c4⟩ := h2 hle
  rw [hc] at c4
  cases c4
  have hbo : ∀ e ∈ fs, (newFilter e.1 e.2).byteOffset = e.2 / 8 := fun e he =>
    (newFilter_spec (hs e he) e.2).2.2.2.1
  have hmax : ∀ e ∈ fs, e.2 / 8 ≤ head := by
    intro e he
    have := e3 _ (List.mem_map.mpr ⟨e, he, rfl⟩)
    rw [hbo e he] at this
    omega
  have hcf : cf = [] := List.length_eq_zero_iff.mp (by omega)
  subst hcf
  obtain ⟨f, hf, ef⟩ := e4
  obtain ⟨e0, he0, rfl⟩ := List.mem_map.mp hf
  rw [hbo e0 he0] at ef
  refine ⟨rfl, ⟨e0, he0, by dsimp only; rw [ef]⟩, fun s o hl => ?_⟩
  have hm : (s, o) ∈ fs := by obtain ⟨l1, l2, rfl, -⟩ := hl; simp
  have hs0 := hs _ hm
  have hgf := hg _ (List.mem_map.mpr ⟨(s, o), hm, rfl⟩)
  have hb : (newFilter s o).byteOffset = o / 8 := hbo _ hm
  have hsz : (newFilter s o).byteSize = filterBytes (o % 8) s.length := (newFilter_spec hs0 o).2.2.2.2.1
  refine ⟨childStr (newFilter [] (head * 8)) (newFilter s o) head tail, childStr_filterStr hgf _ _, ?_⟩
  have hreq : ∀ p, required (childStr (newFilter [] (head * 8)) (newFilter s o) head tail) (o / 8 * 8) p =
      required s o p := by
    intro p
    have := (childStr_required (cf := newFilter [] (head * 8)) hgf head tail p).2
      (by rintro ⟨a, b, -, -⟩; omega)
    rw [← hb, this, newFilter_fix hs0]
  have hchild := child_of_last hs hl fun f => newFilter (childStr (newFilter [] (head * 8)) f head tail)
    (if f.byteOffset < tail then f.byteOffset * 8 else 0)
  have hpos := hgf.pos
  dsimp only at hpos
  refine ⟨fun ⟨e, he, hlt⟩ => ⟨?_, fun id hid => ?_, hreq⟩, fun hall => ⟨?_, ?_, fun id hid => ?_, fun p => ?_⟩⟩
  · have := hmax e he
    rw [hchild, hb, if_pos (by omega)]
  · have := covers_bytes hid
    exact ⟨by rw [childStr_length, hsz]; omega, by omega⟩
  · have := hall e0 he0
    rw [hchild, hb, if_neg (by omega)]
  · -- the last byte is not the first
    apply Classical.byContradiction
    intro h
    refine hno ⟨0, fun e he => ?_⟩
    rw [touches_iff (hs e he), hbo e he]
    have := hall e he
    have := (hg _ (List.mem_map.mpr ⟨e, he, rfl⟩)).pos
    omega
  · have := covers_bytes hid
    exact ⟨by rw [childStr_length, hsz]; omega, by omega⟩
  · have h3 := hreq (o / 8 * 8 + p)
    unfold required at h3 ⊢
    rw [if_pos (by omega), Nat.add_sub_cancel_left] at h3
    rw [if_pos (by omega), Nat.sub_zero, h3]
    by_cases hp : o % 8 ≤ p
    · rw [if_pos (by omega), if_pos hp, show o / 8 * 8 + p - o = p - o % 8 by omega]
    · rw [if_neg (by omega), if_neg hp]

example : newComposition (filtersOf [("00110011".toList, 0), ("11x".toList, 9)]) =
    some ⟨[], 8, [("00110011".toList, newFilter "00110011".toList 0),
      ("11x".toList, newFilter "x11xxxxx".toList 0)]⟩ ∧
    LastAt [("00110011".toList, 0), ("11x".toList, 9)] "11x".toList 9 :=
  ⟨by decide +kernel, [("00110011".toList, 0)], [], rfl, by simp⟩

/-- an ID with prescribed bits -/
theorem exists_id_bits (g : Nat → Bool) (n : Nat) :
    ∃ id : List Byte, id.length = n ∧ ∀ p, p < 8 * n → idBit id p = g p := by
  refine ⟨(List.range n).map fun i => byteOfBits (g (8 * i)) (g (8 * i + 1)) (g (8 * i + 2))
    (g (8 * i + 3)) (g (8 * i + 4)) (g (8 * i + 5)) (g (8 * i + 6)) (g (8 * i + 7)), by simp, ?_⟩
  intro p hp
  rw [range_map_bits n _ hp]
  have e : p = 8 * (p / 8) + p % 8 := by omega
  generalize p / 8 = i at e
  have hj : p % 8 < 8 := by omega
  generalize p % 8 = j at e hj
  subst e
  obtain ⟨h0, h1, h2, h3, h4, h5, h6, h7⟩ := byteOfBits_getMsbD (g (8 * i)) (g (8 * i + 1)) (g (8 * i + 2))
    (g (8 * i + 3)) (g (8 * i + 4)) (g (8 * i + 5)) (g (8 * i + 6)) (g (8 * i + 7))
  match j, hj with
  | 0, _ => exact h0
  | 1, _ => exact h1
  | 2, _ => exact h2
  | 3, _ => exact h3
  | 4, _ => exact h4
  | 5, _ => exact h5
  | 6, _ => exact h6
  | 7, _ => exact h7

/-- The last character of a string that is not a wildcard. -/
theorem last_fixed (s : Str) (h : ¬ ∀ c ∈ s, c = 'x') :
    ∃ (i : Nat) (c : Char), s[i]? = some c ∧ c ≠ 'x' ∧ ∀ (j : Nat) d, s[j]? = some d → d ≠ 'x' → j ≤ i := by
  induction s with
  | nil => exact absurd (by simp) h
  | cons a s ih =>
    by_cases hs : ∀ c ∈ s, c = 'x'
    · refine ⟨0, a, rfl, fun ha => h ?_, ?_⟩
      · intro c hc
        rcases List.mem_cons.mp hc with rfl | hc
        · exact ha
        · exact hs c hc
      · intro j d hj hd
        cases j with
        | zero => omega
        | succ j =>
          rw [List.getElem?_cons_succ] at hj
          exact absurd (hs d (List.mem_of_getElem? hj)) hd
    · obtain ⟨i, c, h1, h2, h3⟩ := ih hs
      refine ⟨i + 1, c, by simpa using h1, h2, fun j d hj hd => ?_⟩
      cases j with
      | zero => omega
      | succ j =>
        rw [List.getElem?_cons_succ] at hj
        have := h3 j d hj hd
        omega

/-- A string that is not all wildcards, at two places, is carried by different IDs of any length that
    holds both. -/
theorem places_differ (s : Str) (h : ¬ ∀ c ∈ s, c = 'x') {a b : Nat} (hab : a < b) (n : Nat)
    (hn : b + s.length ≤ 8 * n) :
    ∃ id : List Byte, id.length = n ∧ Carries s a id ∧ ¬ Carries s b id := by
  obtain ⟨i, c, h1, h2, h3⟩ := last_fixed s h
  have hi : i < s.length := (List.getElem?_eq_some_iff.mp h1).1
  obtain ⟨id, l, hb⟩ := exists_id_bits
    (fun p => if p = b + i then decide (c ≠ '1') else decide (s[p - a]? = some '1')) n
  refine ⟨id, l, fun j d hj hd => ?_, fun hc => ?_⟩
  · have := h3 j d hj hd
    rw [hb _ (by omega), if_neg (by omega), Nat.add_sub_cancel_left, hj]
    simp
  · have := hc i c h1 h2
    rw [hb _ (by omega), if_pos rfl] at this
    simp at this

/-- Exactly when the original can be replaced. Let the function return and let the last entry with the
    string `s` be at `l`. If all filters share a byte or one starts in a later byte than that entry,
    composite and child stand for `s` at `l`; otherwise for `s` at `l % 8`. So for an entry `(s, o)` the
    composite and the child under `s` together match the IDs that it matches exactly if `o` is this
    place (or if `s` has wildcards only). -/
theorem C63_exact (fs : List (Str × Nat)) (hs : ∀ e ∈ fs, IsFilterStr e.1) (c : Composition)
    (hc : newComposition (filtersOf fs) = some c) (s : Str) (l : Nat) (hl : LastAt fs s l) :
    ∃ f, mapGet c.children s = some f ∧ ∀ o, (s, o) ∈ fs →
      (((∃ k, ∀ e ∈ fs, Touches e.1 e.2 k) ∨ ∃ e ∈ fs, l / 8 < e.2 / 8) →
        ((∀ id, (∀ e ∈ fs, Covers e.1 e.2 id) → ((newFilter s o).matchID id = some true ↔
          (newFilter c.filter c.offset).matchID id = some true ∧ f.matchID id = some true)) ↔
          (∀ x ∈ s, x = 'x') ∨ o = l)) ∧
      (¬ ((∃ k, ∀ e ∈ fs, Touches e.1 e.2 k) ∨ ∃ e ∈ fs, l / 8 < e.2 / 8) →
        ((∀ id, (∀ e ∈ fs, Covers e.1 e.2 id) → ((newFilter s o).matchID id = some true ↔
          (newFilter c.filter c.offset).matchID id = some true ∧ f.matchID id = some true)) ↔
          (∀ x ∈ s, x = 'x') ∨ o = l % 8)) := by
  have hml : (s, l) ∈ fs := by obtain ⟨l1, l2, rfl, -⟩ := hl; simp
  have hs0 := hs _ hml
  -- what composite and child stand for decides
  have key : ∀ (f : FilterObject) (pl : Nat), pl ≤ l →
      (∀ id, (∀ e ∈ fs, Covers e.1 e.2 id) →
        ((newFilter c.filter c.offset).matchID id = some true ∧ f.matchID id = some true ↔
          Carries s pl id)) → ∀ o, (s, o) ∈ fs →
      ((∀ id, (∀ e ∈ fs, Covers e.1 e.2 id) → ((newFilter s o).matchID id = some true ↔
          (newFilter c.filter c.offset).matchID id = some true ∧ f.matchID id = some true)) ↔
          (∀ x ∈ s, x = 'x') ∨ o = pl) := by
    intro f pl hpl hf o ho
    constructor
    · intro h
      by_cases hx : ∀ x ∈ s, x = 'x'
      · exact Or.inl hx
      refine Or.inr ?_
      have h' : ∀ id, (∀ e ∈ fs, Covers e.1 e.2 id) → (Carries s o id ↔ Carries s pl id) := by
        intro id hid
        rw [← hf id hid, ← h id hid, (C01_match_iff_carries s hs0 o id (hid _ ho)).1]
      obtain ⟨n, hn⟩ : ∃ n, ∀ e ∈ fs, e.2 + e.1.length + 1 ≤ 8 * n := by
        clear hl hml hs hc h h' hf ho
        induction fs with
        | nil => exact ⟨0, by simp⟩
        | cons e fs ih =>
          obtain ⟨n, hn⟩ := ih
          refine ⟨n + e.2 + e.1.length + 1, fun e' he' => ?_⟩
          rcases List.mem_cons.mp he' with rfl | he'
          · omega
          · have := hn e' he'; omega
      have hcov : ∀ id : List Byte, id.length = n → ∀ e ∈ fs, Covers e.1 e.2 id := by
        intro id hid e he
        have := hn e he
        exact ⟨by omega, by omega⟩
      have b1 := hn _ ho
      have b2 := hn _ hml
      dsimp only at b1 b2
      apply Classical.byContradiction
      intro hne
      rcases Nat.lt_or_gt_of_ne hne with hlt | hlt
      · obtain ⟨id, i1, i2, i3⟩ := places_differ s hx hlt n (by omega)
        exact i3 ((h' id (hcov id i1)).mp i2)
      · obtain ⟨id, i1, i2, i3⟩ := places_differ s hx hlt n (by omega)
        exact i3 ((h' id (hcov id i1)).mpr i2)
    · rintro (hx | rfl) id hid
      · rw [hf id hid, (C01_match_iff_carries s hs0 o id (hid _ ho)).1]
        constructor
        · intro _ i d hi hd
          exact absurd (hx d (List.mem_of_getElem? hi)) hd
        · intro _ i d hi hd
          exact absurd (hx d (List.mem_of_getElem? hi)) hd
      · rw [hf id hid, (C01_match_iff_carries s hs0 o id (hid _ ho)).1]
  by_cases hsh : ∃ k, ∀ e ∈ fs, Touches e.1 e.2 k
  · obtain ⟨k, hk⟩ := hsh
    obtain ⟨c', t, o', q1, q2, -, q4, -, -⟩ := C63_equivalent fs hs k hk s l hl
    rw [hc] at q1
    cases q1
    refine ⟨_, q2, fun o ho => ⟨fun _ => ?_, fun h => absurd (Or.inl ⟨k, hk⟩) h⟩⟩
    refine key _ l (Nat.le_refl _) (fun id hid => ?_) o ho
    rw [← (q4 id (hid _ hml)).2.2, (C01_match_iff_carries s hs0 l id (hid _ hml)).1]
  · obtain ⟨q1, ⟨e0, he0, q2⟩, q3⟩ := C63_apart fs hs hsh c hc
    obtain ⟨t, t1, t2, t3⟩ := q3 s l hl
    have hcomp : ∀ id, (∀ e ∈ fs, Covers e.1 e.2 id) →
        (newFilter c.filter c.offset).matchID id = some true := by
      intro id hid
      have := hid e0 he0
      rw [q1, q2]
      refine (C01_match_iff_carries [] (by simp [IsFilterStr]) _ id ⟨?_, ?_⟩).1.mpr (by simp [Carries])
      · have := this.2; simp; omega
      · have := this.2; omega
    by_cases hlt : ∃ e ∈ fs, l / 8 < e.2 / 8
    · obtain ⟨u1, u2, u3⟩ := t2 hlt
      refine ⟨_, u1, fun o ho => ⟨fun _ => ?_, fun h => absurd (Or.inr hlt) h⟩⟩
      refine key _ l (Nat.le_refl _) (fun id hid => ?_) o ho
      rw [(C01_match_iff_carries t t1 _ id (u2 id (hid _ hml))).1, carries_iff_required,
        carries_iff_required]
      simp only [u3, hcomp id hid, true_and]
    · obtain ⟨u1, -, u2, u3⟩ := t3 (by simpa using hlt)
      refine ⟨_, u1, fun o ho => ⟨fun h => absurd h (not_or.mpr ⟨hsh, hlt⟩), fun _ => ?_⟩⟩
      refine key _ (l % 8) (Nat.mod_le _ _) (fun id hid => ?_) o ho
      rw [(C01_match_iff_carries t t1 _ id (u2 id (hid _ hml))).1, carries_iff_required,
        carries_iff_required]
      simp only [u3, hcomp id hid, true_and]

/-- In particular the last entry with its string is replaced correctly exactly if all filters share a
    byte, or another one starts in a later byte, or there is nothing to compare. -/
theorem C63_last_iff (fs : List (Str × Nat)) (hs : ∀ e ∈ fs, IsFilterStr e.1) (c : Composition)
    (hc : newComposition (filtersOf fs) = some c) (s : Str) (l : Nat) (hl : LastAt fs s l) :
    ∃ f, mapGet c.children s = some f ∧
      ((∀ id, (∀ e ∈ fs, Covers e.1 e.2 id) → ((newFilter s l).matchID id = some true ↔
          (newFilter c.filter c.offset).matchID id = some true ∧ f.matchID id = some true)) ↔
        (∃ k, ∀ e ∈ fs, Touches e.1 e.2 k) ∨ (∃ e ∈ fs, l / 8 < e.2 / 8) ∨ ∀ x ∈ s, x = 'x') := by
  have hml : (s, l) ∈ fs := by obtain ⟨l1, l2, rfl, -⟩ := hl; simp
  obtain ⟨f, h1, h2⟩ := C63_exact fs hs c hc s l hl
  refine ⟨f, h1, ?_⟩
  obtain ⟨h3, h4⟩ := h2 l hml
  by_cases h : (∃ k, ∀ e ∈ fs, Touches e.1 e.2 k) ∨ ∃ e ∈ fs, l / 8 < e.2 / 8
  · rw [h3 h]
    constructor
    · intro _
      rcases h with h | h
      · exact Or.inl h
      · exact Or.inr (Or.inl h)
    · intro _
      exact Or.inr rfl
  · rw [h4 h]
    have hpos : 0 < l / 8 := by
      obtain ⟨-, -, q3⟩ := C63_apart fs hs (fun h' => h (Or.inl h')) c hc
      obtain ⟨t, -, -, t3⟩ := q3 s l hl
      exact (t3 (by
        have := fun h' => h (Or.inr h')
        simpa using this)).2.1
    constructor
    · rintro (h' | h')
      · exact Or.inr (Or.inr h')
      · omega
    · rintro (h' | h' | h')
      · exact absurd (Or.inl h') h
      · exact absurd (Or.inr h') h
      · exact Or.inl h'

-- the second filter is moved to the place of the first, which is then right by accident
example : (newComposition (filtersOf [("00110011".toList, 0), ("00110011".toList, 8)])).map
    (fun c => mapGet c.children "00110011".toList) = some (some (newFilter "00110011".toList 0)) := by
  decide +kernel

/-- Filters in adjacent bytes: no panic, but the later one is moved to the start of the ID. It then
    accepts an ID that the original rejects, and the other way round. -/
theorem C63_adjacent_moved :
    ∃ c f, newComposition (filtersOf [("00110011".toList, 0), ("11110000".toList, 8)]) = some c ∧
      mapGet c.children "11110000".toList = some f ∧
      (newFilter "11110000".toList 8).matchID [0x33#8, 0xF0#8] = some true ∧
      (newFilter c.filter c.offset).matchID [0x33#8, 0xF0#8] = some true ∧
      f.matchID [0x33#8, 0xF0#8] = some false ∧
      (newFilter "11110000".toList 8).matchID [0xF0#8, 0x33#8] = some false ∧
      (newFilter c.filter c.offset).matchID [0xF0#8, 0x33#8] = some true ∧
      f.matchID [0xF0#8, 0x33#8] = some true := by
  refine ⟨⟨[], 8, [("00110011".toList, newFilter "00110011".toList 0),
    ("11110000".toList, newFilter "11110000".toList 0)]⟩, newFilter "11110000".toList 0, ?_⟩
  decide +kernel

/-- The same string at two places has one child only, that of the last. -/
theorem C63_same_string_lost :
    ∃ c f, newComposition (filtersOf [("0011".toList, 0), ("0011".toList, 4)]) = some c ∧
      c.children = [("0011".toList, f)] ∧
      (newFilter "0011".toList 0).matchID [0x30#8] = some true ∧
      (newFilter "0011".toList 4).matchID [0x30#8] = some false ∧
      (newFilter c.filter c.offset).matchID [0x30#8] = some true ∧ f.matchID [0x30#8] = some false := by
  refine ⟨⟨"xxxxxxxx".toList, 0, [("0011".toList, newFilter "xxxx0011".toList 0)]⟩,
    newFilter "xxxx0011".toList 0, ?_⟩
  decide +kernel

/-- For arbitrary filter objects composition can fail although they share a byte: the object below
    masks a bit whose filter bit is 0 and so matches nothing; its child accepts such IDs. -/
theorem C63_ill_formed_object :
    let f : FilterObject := ⟨"f".toList, 8, 0, [0x00#8], [0x01#8], 0, 1⟩
    ∃ c g, newComposition [f] = some c ∧ mapGet c.children f.str = some g ∧
      (∀ b : Byte, f.matchID [b] = some false) ∧
      (newFilter c.filter c.offset).matchID [0x00#8] = some true ∧ g.matchID [0x00#8] = some true := by
  refine ⟨⟨"0000000x".toList, 0, [("f".toList, newFilter "00000000".toList 0)]⟩,
    newFilter "00000000".toList 0, ?_⟩
  decide +kernel

/-! ## C64 -/

theorem consecutive_append_singleton {g : List Int} {l r : Int} (hg : Consecutive g)
    (hl : g.getLast? = some l) (h : l + 1 = r) : Consecutive (g ++ [r]) := by
  intro i a b ha hb
  rw [List.getLast?_eq_getElem?] at hl
  have hb' := (List.getElem?_eq_some_iff.mp hb).1
  simp only [List.length_append, List.length_cons, List.length_nil] at hb'
  by_cases hi : i + 1 < g.length
  · rw [List.getElem?_append_left (by omega)] at ha hb
    exact hg i a b ha hb
  · rw [List.getElem?_append_left (by omega)] at ha
    rw [List.getElem?_append_right (by omega)] at hb
    have e : i = g.length - 1 := by omega
    rw [← e, ha] at hl
    rw [show i + 1 - g.length = 0 by omega] at hb
    simp at hb hl
    omega

theorem groupStep_inv (rs : List Int) (h : rs ≠ []) :
    let st := rs.foldl groupStep ([], [])
    st.2 ≠ [] ∧ (st.1 ++ [st.2]).flatten = rs ∧ MaximalRuns (st.1 ++ [st.2]) := by
  obtain ⟨r, rs, rfl⟩ : ∃ r t, rs = r :: t := by cases rs <;> simp_all
  have key : ∀ (rs done : List Int) (gs : List (List Int)) (g : List Int), g ≠ [] →
      (gs ++ [g]).flatten = done → MaximalRuns (gs ++ [g]) →
      let st := rs.foldl groupStep (gs, g)
      st.2 ≠ [] ∧ (st.1 ++ [st.2]).flatten = done ++ rs ∧ MaximalRuns (st.1 ++ [st.2]) := by
    intro rs
    induction rs with
    | nil => intro done gs g h1 h2 h3; simpa using ⟨h1, by simpa using h2, h3⟩
    | cons r rs ih =>
      intro done gs g h1 h2 h3
      obtain ⟨l, hl⟩ : ∃ l, g.getLast? = some l := by
        cases hgl : g.getLast? with
        | none => exact absurd (List.getLast?_eq_none_iff.mp hgl) h1
        | some l => exact ⟨l, rfl⟩
      rw [List.foldl_cons]
      have hgc := (h3.1 g (by simp)).2
      have hst : groupStep (gs, g) r = if l + 1 = r then (gs, g ++ [r]) else (gs ++ [g], [r]) := by
        unfold groupStep
        rw [hl]
      rw [hst]
      by_cases hr : l + 1 = r
      · rw [if_pos hr]
        have := ih (done ++ [r]) gs (g ++ [r]) (by simp) (by rw [← h2]; simp) ?_
        · simpa using this
        · refine ⟨?_, ?_⟩
          · intro g' hg'
            rw [List.mem_append, List.mem_singleton] at hg'
            rcases hg' with hg' | rfl
            · exact h3.1 g' (by simp [hg'])
            · exact ⟨by simp, consecutive_append_singleton hgc hl hr⟩
          · intro i p q a b hp hq ha hb
            have hq' := (List.getElem?_eq_some_iff.mp hq).1
            simp only [List.length_append, List.length_cons, List.length_nil] at hq'
            have hp' : (gs ++ [g])[i]? = some p := by
              rw [List.getElem?_append_left (by omega)] at hp ⊢
              exact hp
            by_cases hi : i + 1 < gs.length
            · refine h3.2 i p q a b hp' ?_ ha hb
              rw [List.getElem?_append_left (by omega)] at hq ⊢
              exact hq
            · rw [List.getElem?_append_right (by omega), show i + 1 - gs.length = 0 by omega] at hq
              simp at hq
              subst hq
              refine h3.2 i p g a b hp' ?_ ha ?_
              · rw [List.getElem?_append_right (by omega), show i + 1 - gs.length = 0 by omega]
                rfl
              · cases g with
                | nil => exact absurd rfl h1
                | cons c g => simpa using hb
      · rw [if_neg hr]
        have := ih (done ++ [r]) (gs ++ [g]) [r] (by simp) (by rw [← h2]; simp) ?_
        · simpa using this
        · refine ⟨?_, ?_⟩
          · intro g' hg'
            rw [List.mem_append, List.mem_singleton] at hg'
            rcases hg' with hg' | rfl
            · exact h3.1 g' hg'
            · exact ⟨by simp, by intro i a b _ hb; simp at hb⟩
          · intro i p q a b hp hq ha hb
            have hq' := (List.getElem?_eq_some_iff.mp hq).1
            simp only [List.length_append, List.length_cons, List.length_nil] at hq'
            rw [List.getElem?_append_left (by simp; omega)] at hp
            by_cases hi : i + 1 < gs.length + 1
            · rw [List.getElem?_append_left (by simp; omega)] at hq
              exact h3.2 i p q a b hp hq ha hb
            · rw [List.getElem?_append_right (by simp; omega)] at hq
              simp only [List.length_append, List.length_cons, List.length_nil] at hq
              rw [show i + 1 - (gs.length + (0 + 1)) = 0 by omega] at hq
              simp at hq
              subst hq
              rw [List.getElem?_append_right (by omega), show i - gs.length = 0 by omega] at hp
              simp at hp
              subst hp
              rw [hl] at ha
              simp at ha hb
              omega
  have := key rs [r] [] [r] (by simp) (by simp)
    ⟨by simp [Consecutive], by intro i p q a b _ hq; simp at hq⟩
  simpa [groupStep] using this

/-- A non-empty list is split into maximal runs of consecutive integers, in order and without loss. -/
theorem C64_groups (rs : List Int) (h : rs ≠ []) :
    (groupSequentialSlice rs).flatten = rs ∧ MaximalRuns (groupSequentialSlice rs) := by
  obtain ⟨-, h2, h3⟩ := groupStep_inv rs h
  exact ⟨h2, h3⟩

theorem maximalRuns_tail {g : List Int} {gs : List (List Int)} (h : MaximalRuns (g :: gs)) :
    MaximalRuns gs := by
  refine ⟨fun g' hg' => h.1 g' (by simp [hg']), fun i p q a b hp hq ha hb => ?_⟩
  exact h.2 (i + 1) p q a b (by simpa using hp) (by simpa using hq) ha hb

/-- two splittings with the same concatenation start with the same run -/
theorem maximalRuns_unique : ∀ (gs hs : List (List Int)), MaximalRuns gs → MaximalRuns hs →
    gs.flatten = hs.flatten → gs = hs := by
  -- the first run is as long as consecutive elements go
  have first : ∀ (g : List Int) (gs : List (List Int)) (h : List Int) (hs : List (List Int)),
      MaximalRuns (g :: gs) → MaximalRuns (h :: hs) → (g :: gs).flatten = (h :: hs).flatten →
      g.length ≤ h.length := by
    intro g gs h hs hg hh e
    apply Classical.byContradiction
    intro hlt
    have hlt : h.length < g.length := by omega
    have hhne := (hh.1 h (by simp)).1
    have hpos : 0 < h.length := List.length_pos_iff.mpr hhne
    -- elements number |h| - 1 and |h| are consecutive in g
    have a1 : g[h.length - 1]? = some g[h.length - 1] := List.getElem?_eq_getElem (by omega)
    have a2 : g[h.length - 1 + 1]? = some g[h.length] := by
      rw [show h.length - 1 + 1 = h.length by omega]
      exact List.getElem?_eq_getElem (by omega)
    have hc := (hg.1 g (by simp)).2 _ _ _ a1 a2
    have e1 : (g :: gs).flatten[h.length - 1]? = g[h.length - 1]? := by
      rw [List.flatten_cons, List.getElem?_append_left (by omega)]
    have e2 : (g :: gs).flatten[h.length]? = g[h.length]? := by
      rw [List.flatten_cons, List.getElem?_append_left (by omega)]
    have e3 : (h :: hs).flatten[h.length - 1]? = h[h.length - 1]? := by
      rw [List.flatten_cons, List.getElem?_append_left (by omega)]
    have e4 : (h :: hs).flatten[h.length]? = hs.flatten[0]? := by
      rw [List.flatten_cons, List.getElem?_append_right (by omega)]
      simp
    rw [e] at e1 e2
    rw [e3, a1] at e1
    rw [e4, List.getElem?_eq_getElem hlt] at e2
    cases hs with
    | nil => simp at e2
    | cons h2 hs =>
      have h2ne := (hh.1 h2 (by simp)).1
      obtain ⟨x, h2', rfl⟩ : ∃ x t, h2 = x :: t := by cases h2 <;> simp_all
      simp at e2
      have := hh.2 0 h (x :: h2') g[h.length - 1] x rfl rfl
        (by rw [List.getLast?_eq_getElem?]; exact e1) rfl
      omega
  intro gs
  induction gs with
  | nil =>
    intro hs _ hh e
    cases hs with
    | nil => rfl
    | cons h hs =>
      have hne := (hh.1 h (by simp)).1
      simp at e
      exact absurd e.1.symm (fun h => hne h.symm)
  | cons g gs ih =>
    intro hs hg hh e
    cases hs with
    | nil =>
      have hne := (hg.1 g (by simp)).1
      simp at e
      exact absurd e.1 hne
    | cons h hs =>
      have l1 := first g gs h hs hg hh e
      have l2 := first h hs g gs hh hg e.symm
      rw [List.flatten_cons, List.flatten_cons] at e
      obtain ⟨e1, e2⟩ := List.append_inj e (by omega)
      subst e1
      rw [ih hs (maximalRuns_tail hg) (maximalRuns_tail hh) e2]

/-- That splitting is the only one. -/
theorem C64_unique (rs : List Int) (h : rs ≠ []) (gs : List (List Int)) :
    groupSequentialSlice rs = gs ↔ gs.flatten = rs ∧ MaximalRuns gs := by
  obtain ⟨h1, h2⟩ := C64_groups rs h
  constructor
  · rintro rfl
    exact ⟨h1, h2⟩
  · rintro ⟨g1, g2⟩
    exact maximalRuns_unique _ _ h2 g2 (h1.trans g1.symm)

/-- No integers make one empty group. -/
theorem C64_empty : groupSequentialSlice [] = [[]] := rfl

-- composition_test.go:88-93
example : groupSequentialSlice [1, 3, 4, 7, 8, 10] = [[1], [3, 4], [7, 8], [10]] := by decide +kernel

end Gosstrak
