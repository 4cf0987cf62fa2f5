import Verif.Model.Csv
import Verif.Spec.Csv

namespace Gosstrak

theorem indexSplit_none {c : Char} : ∀ {s : Str}, indexSplit c s = none ↔ c ∉ s
  | [] => by simp [indexSplit]
  | d :: s => by
    unfold indexSplit
    by_cases h : d = c
    · simp [h]
    · rw [if_neg h, Option.map_eq_none_iff, indexSplit_none, List.mem_cons]
      simp [eq_comm (a := c), h]

theorem indexSplit_some {c : Char} : ∀ {s a b : Str}, indexSplit c s = some (a, b) ↔ s = a ++ c :: b ∧ c ∉ a
  | [], a, b => by simp [indexSplit]
  | d :: s, a, b => by
    unfold indexSplit
    by_cases h : d = c
    · rw [if_pos h, Option.some.injEq, Prod.mk.injEq, h]
      cases a with
      | nil => simp
      | cons x a =>
        simp only [List.nil_eq, reduceCtorEq, false_and, List.cons_append, List.cons.injEq, List.mem_cons, not_or, false_iff]
        rintro ⟨⟨rfl, -⟩, h, -⟩
        exact h rfl
    · rw [if_neg h]
      cases a with
      | nil =>
        simp only [Option.map_eq_some_iff, Prod.mk.injEq, List.nil_append, List.cons.injEq]
        constructor
        · rintro ⟨p, -, h, -⟩; cases h
        · rintro ⟨⟨e, -⟩, -⟩; exact absurd e h
      | cons x a =>
        simp only [Option.map_eq_some_iff, Prod.mk.injEq, List.cons_append, List.cons.injEq, List.mem_cons, not_or]
        constructor
        · rintro ⟨⟨p, q⟩, h1, ⟨rfl, rfl⟩, rfl⟩
          obtain ⟨rfl, h2⟩ := indexSplit_some.mp h1
          exact ⟨⟨rfl, rfl⟩, fun e => h e.symm, h2⟩
        · rintro ⟨⟨rfl, rfl⟩, -, h2⟩
          exact ⟨(a, b), indexSplit_some.mpr ⟨rfl, h2⟩, ⟨rfl, rfl⟩, rfl⟩

theorem dropCR_cons (c d : Char) (l : Str) : dropCR (c :: d :: l) = c :: dropCR (d :: l) := by
  unfold dropCR
  rw [List.getLast?_cons_cons]
  split <;> rfl

theorem lineEnds_line (rest : Str) : ∀ (l : Str), '\n' ∉ l → lineEnds (l ++ '\n' :: rest) = dropCR l ++ '\n' :: lineEnds rest
  | [], _ => by simp [lineEnds, dropCR]
  | [c], h => by
    by_cases hc : c = '\r'
    · subst hc; simp [lineEnds, dropCR]
    · simp [lineEnds, dropCR, hc]
  | c :: d :: l, h => by
    have ih := lineEnds_line rest (d :: l) (fun e => h (List.mem_cons_of_mem _ e))
    rw [dropCR_cons, List.cons_append, lineEnds, if_neg, ih]
    · rfl
    · rintro ⟨-, e | e⟩
      · cases e
      · simp only [List.cons_append, List.head?_cons, Option.some.injEq] at e
        exact h (by simp [e])

theorem lineEnds_end : ∀ (l : Str), '\n' ∉ l → lineEnds l = dropCR l
  | [], _ => by simp [lineEnds, dropCR]
  | [c], h => by
    by_cases hc : c = '\r'
    · subst hc; simp [lineEnds, dropCR]
    · simp [lineEnds, dropCR, hc]
  | c :: d :: l, h => by
    have ih := lineEnds_end (d :: l) (fun e => h (List.mem_cons_of_mem _ e))
    rw [dropCR_cons, lineEnds, if_neg, ih]
    rintro ⟨-, e | e⟩
    · cases e
    · simp only [List.head?_cons, Option.some.injEq] at e
      exact h (by simp [e])

theorem mem_dropCR {c : Char} {l : Str} (h : c ∈ dropCR l) : c ∈ l := by
  unfold dropCR at h
  split at h
  · exact List.dropLast_subset _ h
  · exact h

/-- a line feed only at the end, and without one nothing follows -/
def LineOf (line rest : Str) : Prop := ∃ body, '\n' ∉ body ∧ (line = body ++ ['\n'] ∨ line = body ∧ rest = [])

theorem csvLine_spec (t : Str) : LineOf (csvLine t).1 (csvLine t).2.1 ∧
    (csvLine t).1 ++ lineEnds (csvLine t).2.1 = lineEnds t ∧ ((csvLine t).2.2 = true ↔ t = []) := by
  unfold csvLine
  cases hs : indexSplit '\n' t with
  | some p =>
    obtain ⟨l, rest⟩ := p
    obtain ⟨rfl, h⟩ := indexSplit_some.mp hs
    refine ⟨⟨dropCR l, fun e => h (mem_dropCR e), Or.inl rfl⟩, ?_, by simp⟩
    rw [lineEnds_line rest l h]
    simp
  | none =>
    have h := indexSplit_none.mp hs
    by_cases h0 : t = []
    · subst h0
      exact ⟨⟨[], by simp, Or.inr ⟨rfl, rfl⟩⟩, rfl, by simp⟩
    · dsimp only
      rw [if_neg h0]
      refine ⟨⟨dropCR t, fun e => h (mem_dropCR e), Or.inr ⟨rfl, rfl⟩⟩, ?_, by simp [h0]⟩
      rw [lineEnds_end t h]
      simp [lineEnds]

theorem LineOf.split {a b rest : Str} {c : Char} (h : LineOf (a ++ c :: b) rest) (hc : c ≠ '\n') :
    '\n' ∉ a ∧ LineOf b rest := by
  obtain ⟨body, h1, h2 | ⟨h2, h3⟩⟩ := h
  · rcases List.eq_nil_or_concat b with rfl | ⟨b', x, rfl⟩
    · have := congrArg List.getLast? h2
      simp at this
      exact absurd this hc
    · rw [List.concat_eq_append] at h2 ⊢
      have e : (a ++ c :: b') ++ [x] = body ++ ['\n'] := by rw [← h2]; simp
      obtain ⟨rfl, e2⟩ := List.append_inj' e rfl
      cases e2
      refine ⟨fun e => h1 (by simp [e]), b', fun e => h1 (by simp [e]), Or.inl rfl⟩
  · subst h2
    exact ⟨fun e => h1 (by simp [e]), b, fun e => h1 (by simp [e]), Or.inr ⟨rfl, h3⟩⟩

theorem doubled_append (a b : Str) : doubled (a ++ b) = doubled a ++ doubled b := by
  induction a with
  | nil => rfl
  | cons c a ih => simp only [List.cons_append, doubled]; split <;> simp [ih]

theorem doubled_plain (a : Str) (h : '"' ∉ a) : doubled a = a := by
  induction a with
  | nil => rfl
  | cons c a ih =>
    rw [doubled, if_neg (fun e => h (by simp [e])), ih (fun e => h (by simp [e]))]

/-- where the record ends: `v` is what there was to read, `s` the record and `rest'` what is left -/
def EndsAt (v s rest' : Str) : Prop := v = s ++ '\n' :: lineEnds rest' ∨ v = s ∧ rest' = []

/-- the end of the line -/
theorem LineOf.endsAt {line rest : Str} (h : LineOf line rest) : EndsAt (line ++ lineEnds rest) (dropNL line) rest ∧
    '\n' ∉ dropNL line := by
  obtain ⟨body, h1, rfl | ⟨rfl, rfl⟩⟩ := h
  · refine ⟨Or.inl (by simp [dropNL]), by simpa [dropNL] using h1⟩
  · have : dropNL line = line := by
      unfold dropNL
      rw [if_neg fun e => h1 (List.mem_of_getLast? e)]
    rw [this]
    exact ⟨Or.inr ⟨by simp [lineEnds], rfl⟩, h1⟩

theorem mem_dropNL {c : Char} {l : Str} (hc : c ≠ '\n') : c ∈ dropNL l ↔ c ∈ l := by
  unfold dropNL
  split
  · rename_i h
    obtain ⟨l', rfl⟩ := List.getLast?_eq_some_iff.mp h
    simp [hc]
  · rfl

/-- What the reader accepts is a record. -/
theorem csv_sound : ∀ n, (∀ line rest fields fs rest', line.length + rest.length ≤ n → LineOf line rest →
      csvFields line rest fields = some (fs, rest') →
      ∃ r s, fs = fields ++ r ∧ CsvRow r s ∧ EndsAt (line ++ lineEnds rest) s rest' ∧ rest'.length ≤ rest.length) ∧
    (∀ line rest buf fields fs rest', line.length + rest.length ≤ n → LineOf line rest →
      csvQuoted line rest buf fields = some (fs, rest') →
      ∃ a q r, line ++ lineEnds rest = doubled a ++ '"' :: q ∧ fs = fields ++ (buf ++ a) :: r ∧
        rest'.length ≤ rest.length ∧
        ((r = [] ∧ EndsAt q [] rest') ∨ ∃ s v, CsvRow r s ∧ q = ',' :: v ∧ EndsAt v s rest')) := by
  intro n
  induction n with
  | zero =>
    constructor
    · intro line rest fields fs rest' hn hl h
      have e1 : line = [] := List.length_eq_zero_iff.mp (by omega)
      have e2 : rest = [] := List.length_eq_zero_iff.mp (by omega)
      subst e1; subst e2
      rw [csvFields.eq_def] at h
      simp [indexSplit, dropNL] at h
      obtain ⟨rfl, rfl⟩ := h
      exact ⟨[[]], [], rfl, .one (.plain (by simp)), Or.inr ⟨rfl, rfl⟩, Nat.le_refl _⟩
    · intro line rest buf fields fs rest' hn hl h
      have e1 : line = [] := List.length_eq_zero_iff.mp (by omega)
      subst e1
      rw [csvQuoted] at h
      simp [indexSplit] at h
  | succ n ih =>
    obtain ⟨ihf, ihq⟩ := ih
    constructor
    · intro line rest fields fs rest' hn hl h
      rw [csvFields.eq_def] at h
      split at h
      · rename_i line' 
        simp only [List.length_cons] at hn
        have hl' := (hl.split (a := []) (by decide)).2
        obtain ⟨a, q, r, h1, rfl, h2, h3⟩ := ihq line' rest [] fields fs rest' (by omega) hl' h
        rw [List.nil_append]
        rcases h3 with ⟨rfl, h3⟩ | ⟨s, v, h3, rfl, h4⟩
        · refine ⟨[a], ['"'] ++ doubled a ++ ['"'], rfl, .one .quoted, ?_, h2⟩
          rw [List.cons_append, h1]
          rcases h3 with h3 | ⟨rfl, h4⟩
          · rw [h3]; exact Or.inl (by simp)
          · exact Or.inr ⟨by simp, h4⟩
        · refine ⟨a :: r, ['"'] ++ doubled a ++ ['"'] ++ ',' :: s, rfl, .cons .quoted h3, ?_, h2⟩
          rw [List.cons_append, h1]
          rcases h4 with rfl | ⟨rfl, h4⟩
          · exact Or.inl (by simp)
          · exact Or.inr ⟨by simp, h4⟩
      · split at h
        · rename_i hc
          split at h
          · cases h
          rename_i hq
          cases h
          obtain ⟨he, hnl⟩ := hl.endsAt
          refine ⟨[dropNL line], dropNL line, rfl, .one (.plain fun c hcm => ⟨?_, ?_, ?_⟩), he, Nat.le_refl _⟩
          · rintro rfl; exact indexSplit_none.mp hc ((mem_dropNL (by decide)).mp hcm)
          · rintro rfl; exact hq hcm
          · rintro rfl; exact hnl hcm
        · rename_i field line' hc
          split at h
          · cases h
          rename_i hq
          have hlt := indexSplit_length hc
          obtain ⟨rfl, hcm⟩ := indexSplit_some.mp hc
          obtain ⟨hnl, hl'⟩ := hl.split (by decide)
          obtain ⟨r, s, rfl, h2, h3, h4⟩ := ihf line' rest (fields ++ [field]) fs rest' (by omega) hl' h
          refine ⟨field :: r, field ++ ',' :: s, by simp, .cons (.plain fun c hcc => ⟨?_, ?_, ?_⟩) h2, ?_, h4⟩
          · rintro rfl; exact hcm hcc
          · rintro rfl; exact hq hcc
          · rintro rfl; exact hnl hcc
          · rcases h3 with h3 | ⟨h3, h5⟩
            · exact Or.inl (by rw [List.append_assoc, List.cons_append, h3]; simp)
            · exact Or.inr ⟨by rw [List.append_assoc, List.cons_append, h3], h5⟩
    · intro line rest buf fields fs rest' hn hl h
      rw [csvQuoted.eq_def] at h
      split at h
      · rename_i a line' hc
        have hlt := indexSplit_length hc
        simp only [List.length_cons] at hlt
        obtain ⟨rfl, hcm⟩ := indexSplit_some.mp hc
        obtain ⟨-, hl1⟩ := hl.split (by decide)
        obtain ⟨-, hl2⟩ := hl1.split (a := []) (by decide)
        obtain ⟨a', q, r, h1, rfl, h2, h3⟩ := ihq line' rest _ fields fs rest' (by omega) hl2 h
        refine ⟨a ++ '"' :: a', q, r, ?_, by simp, h2, h3⟩
        rw [doubled_append, doubled_plain a hcm, doubled, if_pos rfl]
        simp [h1]
      · rename_i a line' hc
        have hlt := indexSplit_length hc
        simp only [List.length_cons] at hlt
        obtain ⟨rfl, hcm⟩ := indexSplit_some.mp hc
        obtain ⟨-, hl1⟩ := hl.split (by decide)
        obtain ⟨-, hl2⟩ := hl1.split (a := []) (by decide)
        obtain ⟨r, s, rfl, h2, h3, h4⟩ := ihf line' rest _ fs rest' (by omega) hl2 h
        refine ⟨a, ',' :: (line' ++ lineEnds rest), r, ?_, by simp, h4, Or.inr ⟨s, _, h2, rfl, h3⟩⟩
        rw [doubled_plain a hcm]
        simp
      · rename_i a line' _ _ hc
        obtain ⟨rfl, hcm⟩ := indexSplit_some.mp hc
        obtain ⟨-, hl1⟩ := hl.split (by decide)
        split at h
        · rename_i he
          cases h
          refine ⟨a, line' ++ lineEnds rest, [], by rw [doubled_plain a hcm]; simp, rfl, Nat.le_refl _, Or.inl ⟨rfl, ?_⟩⟩
          rcases he with rfl | rfl
          · obtain ⟨body, g1, g2 | ⟨g2, g3⟩⟩ := hl1
            · simp at g2
            · subst g3; exact Or.inr ⟨rfl, rfl⟩
          · exact Or.inl rfl
        · cases h
      · rename_i hc
        split at h
        · cases h
        · rename_i h0
          have hlen := csvLine_length rest
          have hpos := List.length_pos_iff.mpr h0
          obtain ⟨s1, s2, -⟩ := csvLine_spec rest
          obtain ⟨a', q, r, h1, rfl, h2, h3⟩ := ihq _ _ _ fields fs rest' (by omega) s1 h
          refine ⟨line ++ a', q, r, ?_, by simp, by omega, h3⟩
          rw [doubled_append, doubled_plain line (indexSplit_none.mp hc), ← s2, h1]
          simp

theorem LineOf.nil {rest : Str} (h : LineOf [] rest) : rest = [] := by
  obtain ⟨body, -, h | h⟩ := h
  · simp at h
  · exact h.2

/-- the line holds what is before the first line feed -/
theorem LineOf.holds {rest : Str} {c : Char} (hc : c ≠ '\n') : ∀ {f line v : Str}, LineOf line rest → '\n' ∉ f →
    line ++ lineEnds rest = f ++ c :: v → ∃ l, line = f ++ c :: l ∧ l ++ lineEnds rest = v
  | [], line, v, hl, _, h => by
    cases line with
    | nil => rw [hl.nil] at h; simp [lineEnds] at h
    | cons x l =>
      rw [List.cons_append, List.nil_append, List.cons.injEq] at h
      exact ⟨l, by rw [h.1]; rfl, h.2⟩
  | y :: f, line, v, hl, hf, h => by
    cases line with
    | nil => rw [hl.nil] at h; simp [lineEnds] at h
    | cons x l =>
      rw [List.cons_append, List.cons_append, List.cons.injEq] at h
      obtain ⟨rfl, h2⟩ := h
      have hx : x ≠ '\n' := fun e => hf (by simp [e])
      obtain ⟨l', rfl, h3⟩ := LineOf.holds hc (hl.split (a := []) hx).2 (fun e => hf (by simp [e])) h2
      exact ⟨l', rfl, h3⟩

theorem quoteless {q : Str} : ∀ {l a v : Str}, '"' ∉ l → l ++ v = doubled a ++ '"' :: q →
    ∃ a', a = l ++ a' ∧ v = doubled a' ++ '"' :: q
  | [], a, v, _, h => ⟨a, rfl, h⟩
  | c :: l, [], v, hl, h => by
    rw [doubled, List.nil_append, List.cons_append, List.cons.injEq] at h
    exact absurd (by simp [h.1]) hl
  | c :: l, d :: a, v, hl, h => by
    have hc : c ≠ '"' := fun e => hl (by simp [e])
    rw [doubled] at h
    split at h
    · rename_i hd
      rw [List.cons_append, List.cons_append, List.cons.injEq] at h
      exact absurd (h.1.trans hd) hc
    · rw [List.cons_append, List.cons_append, List.cons.injEq] at h
      obtain ⟨a', rfl, h2⟩ := quoteless (fun e => hl (by simp [e])) h.2
      exact ⟨a', by rw [h.1]; rfl, h2⟩

/-- behind the closing quote -/
def csvAfter (line rest : Str) (fields : List Str) : Option (List Str × Str) :=
  match line with
  | ',' :: l => csvFields l rest fields
  | l => if l = [] ∨ l = ['\n'] then some (fields, rest) else none

/-- a quoted field is read to its closing quote -/
theorem csvQuoted_reads : ∀ n line rest buf fields a q, line.length + rest.length ≤ n → LineOf line rest →
    line ++ lineEnds rest = doubled a ++ '"' :: q → q.head? ≠ some '"' →
    ∃ line' rest', LineOf line' rest' ∧ line' ++ lineEnds rest' = q ∧ rest'.length ≤ rest.length ∧
      csvQuoted line rest buf fields = csvAfter line' rest' (fields ++ [buf ++ a]) := by
  intro n
  induction n with
  | zero =>
    intro line rest buf fields a q hn hl h _
    have e1 : line = [] := List.length_eq_zero_iff.mp (by omega)
    have e2 : rest = [] := List.length_eq_zero_iff.mp (by omega)
    subst e1; subst e2
    simp [lineEnds] at h
  | succ n ih =>
    intro line rest buf fields a q hn hl h hq
    cases hc : indexSplit '"' line with
    | none =>
      obtain ⟨a', rfl, h2⟩ := quoteless (indexSplit_none.mp hc) h
      have h0 : line ≠ [] := by
        rintro rfl
        rw [hl.nil] at h2
        simp [lineEnds] at h2
      have hlen := csvLine_length rest
      have hpos := List.length_pos_iff.mpr h0
      obtain ⟨s1, s2, -⟩ := csvLine_spec rest
      obtain ⟨line', rest', g1, g2, g3, g4⟩ := ih _ _ (buf ++ line) fields a' q (by omega) s1 (s2.trans h2) hq
      refine ⟨line', rest', g1, g2, by omega, ?_⟩
      rw [← List.append_assoc, ← g4, csvQuoted.eq_def]
      split
      · rename_i he; rw [hc] at he; cases he
      · rename_i he; rw [hc] at he; cases he
      · rename_i he; rw [hc] at he; cases he
      · rw [dif_neg h0]
    | some p =>
      obtain ⟨b, l⟩ := p
      have hlt := indexSplit_length hc
      have hc' := hc
      obtain ⟨rfl, hb⟩ := indexSplit_some.mp hc
      have hl1 := (hl.split (by decide)).2
      rw [List.append_assoc, List.cons_append] at h
      obtain ⟨a', rfl, h2⟩ := quoteless hb h
      cases a' with
      | nil =>
        rw [doubled, List.nil_append, List.cons.injEq] at h2
        refine ⟨l, rest, hl1, h2.2, Nat.le_refl _, ?_⟩
        rw [csvQuoted.eq_def, List.append_nil]
        split
        · rename_i he
          rw [hc'] at he
          cases he
          rw [← h2.2] at hq
          simp at hq
        · rename_i he
          rw [hc'] at he
          cases he
          rfl
        · rename_i n1 n2 he
          rw [hc'] at he
          cases he
          unfold csvAfter
          cases l with
          | nil => rfl
          | cons x l =>
            simp
        · rename_i he
          rw [hc'] at he
          cases he
      | cons c a' =>
        have hcq : c = '"' := by
          rw [doubled] at h2
          split at h2
          · assumption
          · rw [List.cons_append, List.cons.injEq] at h2
            exact h2.1.symm
        subst hcq
        rw [doubled, if_pos rfl, List.cons_append, List.cons.injEq, List.cons_append] at h2
        obtain ⟨l2, rfl, h3⟩ := LineOf.holds (f := []) (by decide) hl1 (by simp) h2.2
        rw [List.nil_append] at hc' hlt hn ⊢
        rw [List.nil_append] at hl1
        simp only [List.length_cons] at hlt
        obtain ⟨line', rest', g1, g2, g3, g4⟩ := ih l2 rest (buf ++ b ++ ['"']) fields a' q
          (by omega) (hl1.split (a := []) (by decide)).2 h3 hq
        refine ⟨line', rest', g1, g2, g3, ?_⟩
        rw [show buf ++ (b ++ '"' :: a') = buf ++ b ++ ['"'] ++ a' by simp, ← g4, csvQuoted.eq_def]
        split
        · rename_i he; rw [hc'] at he; cases he; rfl
        · rename_i he; rw [hc'] at he; cases he
        · rename_i n1 n2 he; rw [hc'] at he; cases he; exact absurd rfl (n1 _)
        · rename_i he; rw [hc'] at he; cases he

theorem csvFields_plain {line rest : Str} {fields : List Str} (h : line.head? ≠ some '"') :
    csvFields line rest fields = match indexSplit ',' line with
      | none => if '"' ∈ dropNL line then none else some (fields ++ [dropNL line], rest)
      | some (field, line') => if '"' ∈ field then none else csvFields line' rest (fields ++ [field]) := by
  rw [csvFields.eq_def]
  split
  · simp at h
  · split
    · rename_i he; rw [he]
    · rename_i he; rw [he]

/-- A record is accepted. -/
theorem csv_complete {r : List Str} {s : Str} (hr : CsvRow r s) : ∀ line rest fields, LineOf line rest →
    (line ++ lineEnds rest = s ∨ ∃ w, line ++ lineEnds rest = s ++ '\n' :: w) →
    ∃ rest', csvFields line rest fields = some (fields ++ r, rest') ∧ EndsAt (line ++ lineEnds rest) s rest' ∧
      rest'.length ≤ rest.length := by
  induction hr with
  | @one f t h =>
    intro line rest fields hl hv
    cases h with
    | plain h =>
      obtain ⟨he, hnl⟩ := hl.endsAt
      have hf : '\n' ∉ f := fun e => (h _ e).2.2 rfl
      have hd : dropNL line = f := by
        rcases he with he | ⟨he, -⟩ <;> rcases hv with hv | ⟨w, hv⟩
        · rw [hv] at he
          exact absurd (by simp [he]) hf
        · rw [hv] at he
          have g1 := indexSplit_some.mpr ⟨he, hnl⟩
          have g2 := indexSplit_some.mpr ⟨(rfl : f ++ '\n' :: w = f ++ '\n' :: w), hf⟩
          rw [g1] at g2
          cases g2
          rfl
        · exact he.symm.trans hv
        · rw [hv] at he
          exact absurd (by simp [← he]) hnl
      refine ⟨rest, ?_, hd ▸ he, Nat.le_refl _⟩
      have hm : ∀ c, c ≠ '\n' → (c ∈ line ↔ c ∈ f) := fun c hc => by rw [← hd, mem_dropNL hc]
      rw [csvFields_plain, indexSplit_none.mpr, hd]
      · dsimp only
        rw [if_neg fun e => (h _ e).2.1 rfl]
      · rw [hm _ (by decide)]
        exact fun e => (h _ e).1 rfl
      · intro e
        exact (h _ ((hm _ (by decide)).mp (List.mem_of_head? e))).2.1 rfl
    | quoted =>
      have hv' : ∃ q, line ++ lineEnds rest = '"' :: (doubled f ++ '"' :: q) ∧ (q = [] ∨ ∃ w, q = '\n' :: w) := by
        rcases hv with hv | ⟨w, hv⟩
        · exact ⟨[], by simp [hv], Or.inl rfl⟩
        · exact ⟨'\n' :: w, by simp [hv], Or.inr ⟨w, rfl⟩⟩
      obtain ⟨q, h1, h2⟩ := hv'
      obtain ⟨l, rfl, h3⟩ := LineOf.holds (f := []) (by decide) hl (by simp) h1
      obtain ⟨line', rest', g1, g2, g3, g4⟩ := csvQuoted_reads _ l rest [] fields f q (Nat.le_refl _)
        (hl.split (a := []) (by decide)).2 h3 (by rcases h2 with rfl | ⟨w, rfl⟩ <;> simp)
      refine ⟨rest', ?_, ?_, g3⟩
      · rw [List.nil_append, csvFields, g4]
        rcases h2 with rfl | ⟨w, rfl⟩
        · rw [List.append_eq_nil_iff] at g2
          rw [g2.1]
          simp [csvAfter]
        · cases line' with
          | nil => rw [g1.nil] at g2; simp [lineEnds] at g2
          | cons c line' =>
            rw [List.cons_append, List.cons.injEq] at g2
            obtain ⟨rfl, -⟩ := g2
            have : line' = [] := by
              obtain ⟨body, b1, b2 | ⟨b2, -⟩⟩ := g1
              · cases body with
                | nil => simpa using b2
                | cons x body =>
                  simp at b2
                  exact absurd (List.mem_cons.mpr (Or.inl b2.1)) b1
              · exact absurd (by simp [← b2]) b1
            subst this
            simp [csvAfter]
      · rw [h1]
        rcases h2 with rfl | ⟨w, rfl⟩
        · rw [List.append_eq_nil_iff] at g2
          have : rest' = [] := by
            rw [g2.1] at g1
            exact g1.nil
          exact Or.inr ⟨by simp, this⟩
        · left
          cases line' with
          | nil => rw [g1.nil] at g2; simp [lineEnds] at g2
          | cons c line' =>
            rw [List.cons_append, List.cons.injEq] at g2
            obtain ⟨rfl, g2⟩ := g2
            have : line' = [] := by
              obtain ⟨body, b1, b2 | ⟨b2, -⟩⟩ := g1
              · cases body with
                | nil => simpa using b2
                | cons x body =>
                  simp at b2
                  exact absurd (List.mem_cons.mpr (Or.inl b2.1)) b1
              · exact absurd (by simp [← b2]) b1
            subst this
            simp [← g2]
  | @cons f t r s h hr ih =>
    intro line rest fields hl hv
    have hv' : ∃ v, line ++ lineEnds rest = t ++ ',' :: v ∧ (v = s ∨ ∃ w, v = s ++ '\n' :: w) := by
      rcases hv with hv | ⟨w, hv⟩
      · exact ⟨s, by simp [hv], Or.inl rfl⟩
      · exact ⟨s ++ '\n' :: w, by simp [hv], Or.inr ⟨w, rfl⟩⟩
    obtain ⟨v, h1, h2⟩ := hv'
    cases h with
    | plain h =>
      have hf : '\n' ∉ f := fun e => (h _ e).2.2 rfl
      obtain ⟨l, rfl, h3⟩ := LineOf.holds (by decide) hl hf h1
      obtain ⟨rest', g1, g2, g3⟩ := ih l rest (fields ++ [f]) (hl.split (by decide)).2 (by rw [h3]; exact h2)
      refine ⟨rest', ?_, ?_, g3⟩
      · rw [csvFields_plain, indexSplit_some.mpr ⟨rfl, fun e => (h _ e).1 rfl⟩]
        · dsimp only
          rw [if_neg fun e => (h _ e).2.1 rfl, g1]
          simp
        · cases f with
          | nil => simp
          | cons x f =>
            simp only [List.cons_append, List.head?_cons, ne_eq, Option.some.injEq]
            exact (h x (by simp)).2.1
      · rw [h1, ← h3]
        rcases g2 with g2 | ⟨g2, g4⟩
        · left; rw [g2]; simp
        · right; exact ⟨by rw [g2], g4⟩
    | quoted =>
      have h1' : line ++ lineEnds rest = [] ++ '"' :: (doubled f ++ '"' :: ',' :: v) := by rw [h1]; simp
      obtain ⟨l, rfl, h3⟩ := LineOf.holds (f := []) (by decide) hl (by simp) h1'
      obtain ⟨line', rest', g1, g2, g3, g4⟩ := csvQuoted_reads _ l rest [] fields f (',' :: v) (Nat.le_refl _)
        (hl.split (a := []) (by decide)).2 h3 (by simp)
      obtain ⟨l', rfl, g5⟩ := LineOf.holds (f := []) (by decide) g1 (by simp) g2
      obtain ⟨rest2, k1, k2, k3⟩ := ih l' rest' (fields ++ [f]) (g1.split (a := []) (by decide)).2 (by rw [g5]; exact h2)
      refine ⟨rest2, ?_, ?_, by omega⟩
      · rw [List.nil_append, csvFields, g4]
        simp only [List.nil_append, csvAfter]
        rw [k1]
        simp
      · rw [h1, ← g5]
        rcases k2 with k2 | ⟨k2, k4⟩
        · left; rw [k2]; simp
        · right; exact ⟨by rw [k2], k4⟩

theorem CsvRow.head {r : List Str} {s : Str} (h : CsvRow r s) : s.head? ≠ some '\n' := by
  have one : ∀ {f t u : Str}, CsvField f t → u.head? ≠ some '\n' → (t ++ u).head? ≠ some '\n' := by
    intro f t u h hu
    cases h with
    | plain h =>
      cases f with
      | nil => exact hu
      | cons c f =>
        simp only [List.cons_append, List.head?_cons, ne_eq, Option.some.injEq]
        exact (h c (by simp)).2.2
    | quoted => simp
  cases h with
  | one h => simpa using one h (u := []) (by simp)
  | cons h hr => exact one h (by simp)

theorem csvText_nil {rows : List (List Str)} : CsvText rows [] ↔ rows = [] := by
  constructor
  · intro h
    generalize hv : ([] : Str) = v at h
    cases h with
    | nil => rfl
    | blank h => cases hv
    | row hr hs h => simp at hv
    | last hr hs => exact absurd hv.symm hs
  · rintro rfl; exact .nil

theorem csvText_blank {rows : List (List Str)} {t : Str} : CsvText rows ('\n' :: t) ↔ CsvText rows t := by
  constructor
  · intro h
    generalize hv : '\n' :: t = v at h
    cases h with
    | nil => cases hv
    | blank h => cases hv; exact h
    | row hr hs h =>
      rename_i s _ _
      cases s with
      | nil => exact absurd rfl hs
      | cons c s =>
        rw [List.cons_append, List.cons.injEq] at hv
        exact absurd (by simp [← hv.1]) hr.head
    | last hr hs => exact absurd (by simp [← hv]) hr.head
  · exact .blank

/-- a line that begins with a line feed is empty -/
theorem LineOf.blank {rest v : Str} {line : Str} (h : LineOf line rest) (hv : line ++ lineEnds rest = '\n' :: v) :
    line = ['\n'] := by
  obtain ⟨body, h1, rfl | ⟨rfl, rfl⟩⟩ := h
  · cases body with
    | nil => rfl
    | cons c body =>
      simp only [List.cons_append, List.cons.injEq] at hv
      exact absurd (by simp [hv.1]) h1
  · rw [lineEnds, List.append_nil] at hv
    exact absurd (by simp [hv]) h1

theorem csvRecords_iff : ∀ (n : Nat) (t : Str) (rows : List (List Str)), t.length ≤ n →
    (csvRecords n t = some rows ↔ CsvText rows (lineEnds t)) := by
  intro n
  induction n with
  | zero =>
    intro t rows hn
    have e : t = [] := List.length_eq_zero_iff.mp (by omega)
    subst e
    rw [csvRecords, lineEnds, csvText_nil]
    simp [eq_comm]
  | succ n ih =>
    intro t rows hn
    by_cases h0 : t = []
    · subst h0
      rw [lineEnds, csvText_nil]
      simp [csvRecords, csvLine, indexSplit, eq_comm]
    have hpos := List.length_pos_iff.mpr h0
    obtain ⟨hl, hv, heof⟩ := csvLine_spec t
    have hlen := csvLine_length t
    rw [csvRecords]
    rcases hcl : csvLine t with ⟨line, rest, eof⟩
    rw [hcl] at hl hv heof hlen
    dsimp only at hl hv heof hlen
    cases eof with
    | true => exact absurd (heof.mp rfl) h0
    | false =>
      have hlt : rest.length < t.length := by
        cases line with
        | nil => rw [hl.nil]; simpa using hpos
        | cons c l => simp only [List.length_cons] at hlen; omega
      dsimp only
      by_cases hb : line = [] ∨ line = ['\n']
      · rw [if_pos hb, ih rest rows (by omega), ← hv]
        rcases hb with rfl | rfl
        · rfl
        · exact csvText_blank.symm
      · rw [if_neg hb]
        rw [not_or] at hb
        constructor
        · intro h
          cases hf : csvFields line rest [] with
          | none => rw [hf] at h; cases h
          | some p =>
            obtain ⟨record, rest'⟩ := p
            rw [hf] at h
            dsimp only at h
            obtain ⟨rs, hrs, rfl⟩ := Option.map_eq_some_iff.mp h
            obtain ⟨r, s, rfl, h2, h3, h4⟩ := (csv_sound _).1 line rest [] _ _ (Nat.le_refl _) hl hf
            have hs : s ≠ [] := by
              rintro rfl
              rcases h3 with h3 | ⟨h3, -⟩
              · exact hb.2 (hl.blank h3)
              · exact hb.1 (List.append_eq_nil_iff.mp h3).1
            rw [← hv]
            rcases h3 with h3 | ⟨h3, rfl⟩
            · rw [h3]
              exact .row h2 hs ((ih _ _ (by omega)).mp hrs)
            · rw [h3]
              have := csvText_nil.mp ((ih _ _ (by simp)).mp hrs)
              subst this
              exact .last h2 hs
        · intro h
          rw [← hv] at h
          generalize hw : line ++ lineEnds rest = w at h
          cases h with
          | nil => exact absurd (List.append_eq_nil_iff.mp hw).1 hb.1
          | blank h => exact absurd (hl.blank hw) hb.2
          | row hr hs h =>
            rename_i r s rows v
            obtain ⟨rest', g1, g2, g3⟩ := csv_complete hr line rest [] hl (Or.inr ⟨v, hw⟩)
            rw [hw] at g2
            rw [g1]
            dsimp only
            rcases g2 with g2 | ⟨g2, -⟩
            · have e : v = lineEnds rest' := by simpa using g2
              rw [(ih rest' rows (by omega)).mpr (e ▸ h)]
              rfl
            · simp at g2
          | last hr hs =>
            obtain ⟨rest', g1, g2, g3⟩ := csv_complete hr line rest [] hl (Or.inl hw)
            rw [hw] at g2
            rw [g1]
            dsimp only
            rcases g2 with g2 | ⟨-, rfl⟩
            · simp at g2
            · rw [(ih [] [] (by simp)).mpr .nil]
              rfl

end Gosstrak
