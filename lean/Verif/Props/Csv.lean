import Verif.Proofs.Csv
import Verif.Props.EndToEnd

/-!
C95: the text of the file of subscriptions.
-/
namespace Gosstrak

/-- A text is read, and as which records, exactly when it is a file of comma-separated values with these
    records. -/
theorem C95_reads (t : Str) (rows : List (List Str)) : csvRead t = some rows ↔ CsvText rows (lineEnds t) :=
  csvRecords_iff t.length t rows (Nat.le_refl _)

example : csvRead "http://a/,urn:epc:pat:sscc-96:3.1\r\n\n\"x\"\"y\",\"1,\n2\"\n,\n\"\"".toList =
    some [["http://a/".toList, "urn:epc:pat:sscc-96:3.1".toList], ["x\"y".toList, "1,\n2".toList], [[], []], [[]]] := by
  decide +kernel

example : csvRead "a,b\"c".toList = none ∧ csvRead "\"a".toList = none ∧ csvRead "\"a\"b".toList = none := by
  decide +kernel

theorem CsvText.rows_ne_nil {rows : List (List Str)} {t : Str} (h : CsvText rows t) : ∀ r ∈ rows, r ≠ [] := by
  have one : ∀ {r s}, CsvRow r s → r ≠ [] := by
    intro r s h
    cases h <;> simp
  induction h with
  | nil => simp
  | blank _ ih => exact ih
  | row hr _ _ ih =>
    intro r hm
    rcases List.mem_cons.mp hm with rfl | hm
    · exact one hr
    · exact ih r hm
  | last hr _ =>
    intro r hm
    rw [List.mem_singleton.mp hm]
    exact one hr

/-- Behind the reader the only panic is that of a record without fields. -/
theorem C95_empty_record (records : List (List Str)) : loadRecords records = none ↔ [] ∈ records := by
  constructor
  · intro h
    refine Decidable.byContradiction fun hn => ?_
    obtain ⟨sub, h1, -⟩ := C65_loaded records fun r hr e => hn (e ▸ hr)
    rw [h1] at h
    cases h
  · intro h
    have key : ∀ (records : List (List Str)) (sub : Subs), [] ∈ records → records.foldlM loadRecord sub = none := by
      intro records
      induction records with
      | nil => intro _ h; cases h
      | cons r records ih =>
        intro sub h
        rw [List.foldlM_cons]
        cases hr : loadRecord sub r with
        | none => rfl
        | some sub' =>
          rcases List.mem_cons.mp h with h | h
          · subst h; cases hr
          · exact ih sub' h
    exact key records [] h

example : loadRecords [["http://a/".toList], []] = none ∧ loadRecords [["http://a/".toList], [[]]] ≠ none := by
  decide +kernel

theorem loadFile_of_text {t : Str} {rows : List (List Str)} (h : CsvText rows (lineEnds t)) :
    loadFile t = loadRecords rows := by
  unfold loadFile
  rw [(C95_reads t rows).mpr h]
  rfl

/-- Loading panics exactly when the text is no file of comma-separated values. -/
theorem C95_panics (t : Str) : loadFile t = none ↔ ∀ rows, ¬ CsvText rows (lineEnds t) := by
  constructor
  · intro h rows hr
    rw [loadFile_of_text hr, C95_empty_record] at h
    exact hr.rows_ne_nil [] h rfl
  · intro h
    have : csvRead t = none := by
      cases hc : csvRead t with
      | none => rfl
      | some rows => exact absurd ((C95_reads t rows).mp hc) (h rows)
    unfold loadFile
    rw [this]
    rfl

/-- What is loaded, in terms of the records of the text. -/
theorem C95_loaded (t : Str) (rows : List (List Str)) (h : CsvText rows (lineEnds t)) :
    ∃ sub, loadFile t = some sub ∧ IsMap sub ∧
      ∀ uri, mapGet sub uri = if "http".toList <+: uri ∧ recordPatterns rows uri ≠ [] then
        some (recordPatterns rows uri) else none := by
  rw [loadFile_of_text h]
  exact C65_loaded rows h.rows_ne_nil

example : loadFile "HTTP://A/,urn:epc:pat:sscc-96:3.1,x\r\nftp://b/,urn:epc:pat:sscc-96:3.2\r\n\r\nhttp://a/,\"URN:EPC:PAT:giai-96:3.1\"".toList =
    some [("http://a/".toList, ["urn:epc:pat:sscc-96:3.1".toList, "URN:EPC:PAT:giai-96:3.1".toList])] := by decide +kernel

theorem mem_lineEnds {c : Char} : ∀ {t : Str}, c ∈ lineEnds t → c ∈ t
  | [], h => h
  | d :: t, h => by
    rw [lineEnds] at h
    split at h
    · exact List.mem_cons_of_mem _ (mem_lineEnds h)
    · rcases List.mem_cons.mp h with rfl | h
      · exact List.mem_cons_self
      · exact List.mem_cons_of_mem _ (mem_lineEnds h)

theorem pieces_plain {c : Char} : ∀ {a : Str}, c ∉ a → pieces c a = [a]
  | [], _ => rfl
  | d :: a, h => by
    rw [pieces, if_neg fun e => h (by simp [e]), pieces_plain fun e => h (by simp [e])]

theorem pieces_split {c : Char} (b : Str) : ∀ {a : Str}, c ∉ a → pieces c (a ++ c :: b) = a :: pieces c b
  | [], _ => by rw [List.nil_append, pieces, if_pos rfl]
  | d :: a, h => by
    rw [List.cons_append, pieces, if_neg fun e => h (by simp [e]), pieces_split b fun e => h (by simp [e])]

theorem csvRow_pieces : ∀ (n : Nat) (s : Str), s.length ≤ n → '"' ∉ s → '\n' ∉ s → CsvRow (pieces ',' s) s := by
  intro n
  induction n with
  | zero =>
    intro s hn _ _
    have e : s = [] := List.length_eq_zero_iff.mp (by omega)
    subst e
    exact .one (.plain (by simp))
  | succ n ih =>
    intro s hn hq hl
    have fine : ∀ a : Str, ',' ∉ a → (∀ c ∈ a, c ∈ s) → CsvField a a := fun a ha hs =>
      .plain fun c hc => ⟨fun e => ha (e ▸ hc), fun e => hq (e ▸ hs c hc), fun e => hl (e ▸ hs c hc)⟩
    cases hc : indexSplit ',' s with
    | none =>
      rw [pieces_plain (indexSplit_none.mp hc)]
      exact .one (fine s (indexSplit_none.mp hc) fun _ h => h)
    | some p =>
      obtain ⟨a, b⟩ := p
      have hlt := indexSplit_length hc
      obtain ⟨rfl, ha⟩ := indexSplit_some.mp hc
      rw [pieces_split b ha]
      exact .cons (fine a ha fun c h => by simp [h]) (ih b (by omega) (fun e => hq (by simp [e])) fun e => hl (by simp [e]))

theorem csvText_pieces : ∀ (n : Nat) (v : Str), v.length ≤ n → '"' ∉ v →
    CsvText (((pieces '\n' v).filter fun l => decide (l ≠ [])).map (pieces ',')) v := by
  intro n
  induction n with
  | zero =>
    intro v hn _
    have e : v = [] := List.length_eq_zero_iff.mp (by omega)
    subst e
    exact .nil
  | succ n ih =>
    intro v hn hq
    cases hc : indexSplit '\n' v with
    | none =>
      have hl := indexSplit_none.mp hc
      rw [pieces_plain hl]
      by_cases h0 : v = []
      · subst h0; exact .nil
      · rw [List.filter_cons_of_pos (by simpa using h0)]
        exact .last (csvRow_pieces _ v (Nat.le_refl _) hq hl) h0
    | some p =>
      obtain ⟨a, b⟩ := p
      have hlt := indexSplit_length hc
      obtain ⟨rfl, ha⟩ := indexSplit_some.mp hc
      have hb := ih b (by omega) fun e => hq (by simp [e])
      rw [pieces_split b ha]
      by_cases h0 : a = []
      · subst h0
        rw [List.filter_cons_of_neg (by simp)]
        exact .blank hb
      · rw [List.filter_cons_of_pos (by simpa using h0)]
        exact .row (csvRow_pieces _ a (Nat.le_refl _) (fun e => hq (by simp [e])) ha) h0 hb

/-- A text without quotes is always read: its records are the lines that are not empty, split at the
    commas. -/
theorem C95_no_quotes (t : Str) (h : '"' ∉ t) :
    csvRead t = some (((pieces '\n' (lineEnds t)).filter fun l => decide (l ≠ [])).map (pieces ',')) ∧
      loadFile t ≠ none := by
  have hv := csvText_pieces _ (lineEnds t) (Nat.le_refl _) fun e => h (mem_lineEnds e)
  exact ⟨(C95_reads _ _).mpr hv, fun e => (C95_panics t).mp e _ hv⟩

example : '"' ∉ "http://a/,b\r\n\n,c".toList ∧ csvRead "http://a/,b\r\n\n,c".toList =
    some [["http://a/".toList, "b".toList], [[], "c".toList]] := by decide +kernel

theorem count_doubled (f : Str) : (doubled f).count '"' = 2 * f.count '"' := by
  induction f with
  | nil => rfl
  | cons c f ih =>
    rw [doubled]
    split
    · rename_i h
      subst h
      simp [ih]
      omega
    · rename_i h
      rw [List.count_cons_of_ne h, List.count_cons_of_ne h, ih]

theorem CsvText.even {rows : List (List Str)} {v : Str} (h : CsvText rows v) : v.count '"' % 2 = 0 := by
  have field : ∀ {f t}, CsvField f t → t.count '"' % 2 = 0 := by
    intro f t h
    cases h with
    | plain h =>
      rw [List.count_eq_zero_of_not_mem fun e => (h _ e).2.1 rfl]
    | quoted =>
      simp [count_doubled]
      omega
  have row : ∀ {r s}, CsvRow r s → s.count '"' % 2 = 0 := by
    intro r s h
    induction h with
    | one h => exact field h
    | cons h _ ih =>
      rw [List.count_append, List.count_cons_of_ne (by decide)]
      have := field h
      omega
  induction h with
  | nil => rfl
  | blank _ ih =>
    rw [List.count_cons_of_ne (by decide)]
    exact ih
  | row hr _ _ ih =>
    rw [List.count_append, List.count_cons_of_ne (by decide)]
    have := row hr
    omega
  | last hr _ => exact row hr

theorem count_lineEnds : ∀ (t : Str), (lineEnds t).count '"' = t.count '"'
  | [] => rfl
  | c :: t => by
    rw [lineEnds]
    split
    · rename_i h
      rw [count_lineEnds t, h.1, List.count_cons_of_ne (by decide)]
    · rw [List.count_cons, List.count_cons, count_lineEnds t]

/-- A file with an odd number of quotes makes the program panic. -/
theorem C95_odd_quotes (t : Str) (h : t.count '"' % 2 = 1) : loadFile t = none := by
  rw [C95_panics]
  intro rows hr
  have := hr.even
  rw [count_lineEnds] at this
  omega

example : "http://a/,urn:epc:pat:sscc-96:3.1\nhttp://b/?q=\"\n".toList.count '"' % 2 = 1 ∧
    loadFile "http://a/,urn:epc:pat:sscc-96:3.1\nhttp://b/?q=\"\n".toList = none := by decide +kernel

theorem head_doubled (f b : Str) : (doubled f ++ '"' :: b).head? = some '\n' ↔ f.head? = some '\n' := by
  cases f with
  | nil => simp [doubled]
  | cons c f =>
    rw [doubled]
    split
    · rename_i h; subst h; simp
    · simp

theorem lineEnds_quoted (b : Str) : ∀ (f : Str), lineEnds (doubled f ++ '"' :: b) = doubled (unCR f) ++ '"' :: lineEnds b
  | [] => by simp [doubled, unCR, lineEnds]
  | c :: f => by
    have ih := lineEnds_quoted b f
    rw [doubled]
    by_cases hq : c = '"'
    · subst hq
      simp [lineEnds, ih, unCR, doubled]
    · rw [if_neg hq, List.cons_append, lineEnds, unCR]
      by_cases hc : c = '\r' ∧ f.head? = some '\n'
      · rw [if_pos ⟨hc.1, Or.inr ((head_doubled f b).mpr hc.2)⟩, if_pos hc, ih]
      · rw [if_neg (by rw [head_doubled]; simpa using hc), if_neg hc, doubled, if_neg hq, ih]
        rfl

theorem lineEnds_row (b : Str) : ∀ (r : List Str), r ≠ [] →
    lineEnds ([','].intercalate (r.map fun f => ['"'] ++ doubled f ++ ['"']) ++ '\n' :: b) =
      [','].intercalate ((r.map unCR).map fun f => ['"'] ++ doubled f ++ ['"']) ++ '\n' :: lineEnds b
  | [], h => absurd rfl h
  | [f], _ => by
    have := lineEnds_quoted ('\n' :: b) f
    simp [lineEnds, this]
  | f :: g :: r, _ => by
    have ih := lineEnds_row b (g :: r) (by simp)
    simp only [List.map_cons, List.intercalate_cons_cons, List.append_assoc, List.cons_append, List.nil_append] at ih ⊢
    rw [lineEnds, if_neg (by simp), lineEnds_quoted, lineEnds, if_neg (by simp), ih]

theorem csvRow_quoted : ∀ (r : List Str), r ≠ [] →
    CsvRow r ([','].intercalate (r.map fun f => ['"'] ++ doubled f ++ ['"']))
  | [], h => absurd rfl h
  | [f], _ => by simpa using CsvRow.one (f := f) .quoted
  | f :: g :: r, _ => by
    have ih := csvRow_quoted (g :: r) (by simp)
    have := CsvRow.cons (f := f) .quoted ih
    simpa [List.intercalate_cons_cons] using this

/-- Records written with all fields quoted are read back, but for the carriage returns before line feeds,
    which are lost. -/
theorem C95_written (rows : List (List Str)) (h : ∀ r ∈ rows, r ≠ []) :
    csvRead (csvFile rows) = some (rows.map fun r => r.map unCR) := by
  rw [C95_reads]
  induction rows with
  | nil => exact .nil
  | cons r rows ih =>
    have hr := h r (by simp)
    have e : csvFile (r :: rows) = [','].intercalate (r.map fun f => ['"'] ++ doubled f ++ ['"']) ++ '\n' :: csvFile rows := by
      unfold csvFile
      simp
    rw [e, lineEnds_row _ r hr]
    have hrow := csvRow_quoted (r.map unCR) (by simpa using hr)
    refine .row hrow ?_ (ih fun r hr => h r (by simp [hr]))
    cases r with
    | nil => exact absurd rfl hr
    | cons f r => cases r <;> simp

theorem unCR_same : ∀ (f : Str), ¬ ['\r', '\n'] <:+: f → unCR f = f
  | [], _ => rfl
  | c :: f, h => by
    rw [unCR, if_neg, unCR_same f fun e => h (e.trans (List.suffix_cons c f).isInfix)]
    rintro ⟨rfl, e⟩
    obtain ⟨f', rfl⟩ := List.head?_eq_some_iff.mp e
    exact h ⟨[], f', by simp⟩

theorem C95_written_same (rows : List (List Str)) (h : ∀ r ∈ rows, r ≠ [] ∧ ∀ f ∈ r, ¬ ['\r', '\n'] <:+: f) :
    csvRead (csvFile rows) = some rows ∧ loadFile (csvFile rows) = loadRecords rows := by
  have e := C95_written rows fun r hr => (h r hr).1
  have : (rows.map fun r => r.map unCR) = rows := by
    conv => rhs; rw [← List.map_id rows]
    refine List.map_congr_left fun r hr => ?_
    conv => rhs; rw [id, ← List.map_id r]
    exact List.map_congr_left fun f hf => unCR_same f ((h r hr).2 f hf)
  rw [this] at e
  exact ⟨e, loadFile_of_text ((C95_reads _ _).mp e)⟩

example : csvFile [["a\"b".toList, "c,\nd".toList], [[]]] = "\"a\"\"b\",\"c,\nd\"\n\"\"\n".toList ∧
    csvRead (csvFile [["a\"b".toList, "c,\nd".toList], [[]]]) = some [["a\"b".toList, "c,\nd".toList], [[]]] ∧
    csvRead (csvFile [["a\r\nb\r".toList]]) = some [["a\nb\r".toList]] := by decide +kernel

/-- Only the line ends of a text may differ. -/
theorem C95_line_ends (t t' : Str) (h : lineEnds t = lineEnds t') : csvRead t = csvRead t' ∧ loadFile t = loadFile t' := by
  have e : csvRead t = csvRead t' := by
    refine Option.ext fun rows => ?_
    rw [C95_reads, C95_reads, h]
  exact ⟨e, by unfold loadFile; rw [e]⟩

/-- A file with line ends of two characters is read like one with line feeds. -/
theorem C95_crlf (t : Str) (h : '\r' ∉ t) : csvRead (crlf t) = csvRead t ∧ loadFile (crlf t) = loadFile t := by
  refine C95_line_ends _ _ ?_
  induction t with
  | nil => rfl
  | cons c t ih =>
    have ih := ih fun e => h (by simp [e])
    have hc : c ≠ '\r' := fun e => h (by simp [e])
    unfold crlf at ih ⊢
    rw [List.flatMap_cons]
    by_cases hn : c = '\n'
    · subst hn
      simp [lineEnds, ih]
    · rw [if_neg hn, List.singleton_append, lineEnds, if_neg fun e => hc e.1, ih, lineEnds, if_neg fun e => hc e.1]

example : '\r' ∉ "http://a/,b\nc".toList ∧ crlf "http://a/,b\nc".toList = "http://a/,b\r\nc".toList ∧
    csvRead (crlf "http://a/,b\nc".toList) = some [["http://a/".toList, "b".toList], ["c".toList]] := by decide +kernel

theorem lineEnds_snoc : ∀ (t : Str), lineEnds (t ++ ['\n']) = lineEnds t ++ ['\n']
  | [] => by simp [lineEnds]
  | c :: t => by
    rw [List.cons_append, lineEnds, lineEnds, lineEnds_snoc t]
    have : (c = '\r' ∧ (t ++ ['\n'] = [] ∨ (t ++ ['\n']).head? = some '\n')) ↔ (c = '\r' ∧ (t = [] ∨ t.head? = some '\n')) := by
      cases t <;> simp
    by_cases hc : c = '\r' ∧ (t = [] ∨ t.head? = some '\n')
    · rw [if_pos hc, if_pos (this.mpr hc)]
    · rw [if_neg hc, if_neg fun e => hc (this.mp e)]
      rfl

theorem CsvRow.last {r : List Str} {s : Str} (h : CsvRow r s) : s.getLast? ≠ some '\n' := by
  induction h with
  | one h =>
    cases h with
    | plain h => exact fun e => (h _ (List.mem_of_getLast? e)).2.2 rfl
    | quoted =>
      rw [List.getLast?_append]
      simp
  | @cons f t r s h hr ih =>
    cases s with
    | nil => simp
    | cons c s =>
      rw [List.getLast?_append, List.getLast?_cons_cons]
      rw [List.getLast?_eq_some_getLast (by simp)] at ih ⊢
      simpa using ih

theorem csvText_snoc {rows : List (List Str)} {v : Str} : CsvText rows (v ++ ['\n']) ↔ CsvText rows v := by
  constructor
  · intro h
    generalize hv : v ++ ['\n'] = w at h
    induction h generalizing v with
    | nil => simp at hv
    | blank h ih =>
      cases v with
      | nil =>
        rw [List.nil_append, List.cons.injEq] at hv
        rw [← hv.2] at h
        exact h
      | cons c v =>
        rw [List.cons_append, List.cons.injEq] at hv
        rw [hv.1]
        exact .blank (ih hv.2)
    | @row r s rows t hr hs h ih =>
      rcases List.eq_nil_or_concat t with rfl | ⟨t', x, rfl⟩
      · have := List.append_inj' hv rfl
        rw [this.1]
        rw [csvText_nil.mp h]
        exact .last hr hs
      · rw [List.concat_eq_append] at hv ih h
        have e : v ++ ['\n'] = (s ++ '\n' :: t') ++ [x] := by rw [hv]; simp
        obtain ⟨rfl, e2⟩ := List.append_inj' e rfl
        exact .row hr hs (ih (by rw [e2]))
    | last hr hs =>
      subst hv
      exact absurd (by simp) hr.last
  · intro h
    induction h with
    | nil => exact .blank .nil
    | blank _ ih => exact .blank ih
    | row hr hs _ ih =>
      rw [List.append_assoc]
      exact .row hr hs ih
    | last hr hs => exact .row hr hs .nil

/-- A line end at the end of the file makes no difference. -/
theorem C95_final_line_end (t : Str) : csvRead (t ++ ['\n']) = csvRead t ∧ loadFile (t ++ ['\n']) = loadFile t := by
  have e : csvRead (t ++ ['\n']) = csvRead t := by
    refine Option.ext fun rows => ?_
    rw [C95_reads, C95_reads, lineEnds_snoc, csvText_snoc]
  exact ⟨e, by unfold loadFile; rw [e]⟩

example : csvRead "a,b".toList = some [["a".toList, "b".toList]] ∧ csvRead "a,b\n".toList = csvRead "a,b".toList ∧
    csvRead "a,\"b".toList = none ∧ csvRead "a,\"b\n".toList = none := by decide +kernel

/-- From the text of the file to the reports. -/
theorem C95_search (x : Binutil) (hx : x.Ok) (t : Str) (records : List (List Str)) (ht : CsvText records (lineEnds t))
    (hf : FileOk records) (hr : NoRivals records) :
    ∃ sub, loadFile t = some sub ∧ ∀ order : Subs, order.Perm sub →
      ∀ (pc id : List Byte) (ident : Str), id.length = 12 → translate pc id = some (ident, false) →
        ∃ r, (newList x.encoder order).search translate pc id = some r ∧
          (∀ u, u ∈ r.reportURIs ↔ Due records id u) ∧
          (r.reportURIs ≠ [] → r.err = false ∧ r.pureIdentity = ident) ∧
          (r.reportURIs = [] → r.err = true) := by
  obtain ⟨sub, l1, l2⟩ := C89_exact x hx records hf hr
  refine ⟨sub, (loadFile_of_text ht).trans l1, fun order hp pc id ident hl htr => ?_⟩
  obtain ⟨r, h1, h2, -, h3, h4⟩ := l2 order hp pc id ident hl htr
  exact ⟨r, h1, h2, h3, h4⟩

-- the file for which FileOk and NoRivals are shown beside C89
private def sampleRows : List (List Str) :=
  [["HTTP://A".toList, "urn:epc:pat:sgtin-96:3.0614141".toList],
   ["http://b".toList, "urn:epc:pat:sgtin-96:3.0614141.812345".toList, "a comment".toList]]

example : CsvText sampleRows (lineEnds (crlf (csvFile sampleRows))) := (C95_reads _ _).mp (by decide +kernel)

end Gosstrak
