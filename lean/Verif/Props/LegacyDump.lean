import Verif.Proofs.LegacyDump

/-! C87: the text form of the legacy engine -/
namespace Gosstrak

/-- C87: the text of the legacy engine has one line per report URI, in ascending order, with its
    patterns as Go string literals in their order, and depends on nothing else: not on the order in which
    the map is visited. -/
theorem C87_text (p : Char → Bool) (hp : AsciiPrint p) (m : Subs) (hm : IsMap m) :
    ∃ es, es.Perm m ∧ (es.map Prod.fst).Pairwise (· < ·) ∧ LegacyText es (legacyDump p m) ∧
      ∀ m', m'.Perm m → legacyDump p m' = legacyDump p m := by
  have hmem : ∀ k ∈ mapKeys m, (k, (mapGet m k).getD []) ∈ m := by
    intro k hk
    rw [mem_mapKeys, ← mapGet_isSome] at hk
    obtain ⟨v, hv⟩ := hk
    rw [hv]
    exact mapGet_mem hv
  have e1 : (((mapKeys m).map fun k => (k, (mapGet m k).getD [])).map Prod.fst) = mapKeys m := by
    rw [List.map_map]; exact List.map_id _
  refine ⟨(mapKeys m).map fun k => (k, (mapGet m k).getD []), ?_, ?_, legacyDump_text hp m, ?_⟩
  · have nd : ∀ {l : Subs}, (l.map Prod.fst).Nodup → l.Nodup := fun h =>
      List.Pairwise.of_map Prod.fst (fun a b hab e => hab (by rw [e])) h
    apply (List.perm_ext_iff_of_nodup (nd (by rw [e1]; exact (sortStrings_perm _).nodup_iff.mpr hm)) (nd hm)).mpr
    intro e
    constructor
    · intro he
      obtain ⟨k, hk, rfl⟩ := List.mem_map.mp he
      exact hmem k hk
    · intro he
      refine List.mem_map.mpr ⟨e.1, ?_, ?_⟩
      · rw [mem_mapKeys]; exact List.mem_map_of_mem he
      · rw [mapGet_of_mem hm (he : (e.1, e.2) ∈ m)]; rfl
  · rw [e1]; exact mapKeys_lt hm
  · intro m' h
    have hm' : IsMap m' := (h.map Prod.fst).nodup_iff.mpr hm
    have hg : ∀ q, mapGet m' q = mapGet m q := by
      intro q
      apply Option.ext
      intro v
      rw [mapGet_iff hm', mapGet_iff hm, h.mem_iff]
    unfold legacyDump
    rw [mapKeys_congr hm' hm hg]
    simp only [hg]

/-- C87: whatever text is read by these rules, it is read in one way. -/
theorem C87_readable (es es' : Subs) (text : Str) (hk : ∀ e ∈ es, '\n' ∉ e.1) (hk' : ∀ e ∈ es', '\n' ∉ e.1)
    (h : LegacyText es text) (h' : LegacyText es' text) : es = es' := legacyText_unique hk hk' h h'

/-- C87: two legacy engines with the same text have the same subscriptions, if no report URI contains a
    newline. The patterns are arbitrary. -/
theorem C87_faithful (p p' : Char → Bool) (hp : AsciiPrint p) (hp' : AsciiPrint p') (m m' : Subs) (hm : IsMap m) (hm' : IsMap m')
    (hk : ∀ e ∈ m, '\n' ∉ e.1) (hk' : ∀ e ∈ m', '\n' ∉ e.1) (h : legacyDump p m = legacyDump p' m') : m.Perm m' := by
  obtain ⟨es, h1, -, h3, -⟩ := C87_text p hp m hm
  obtain ⟨es', g1, -, g3, -⟩ := C87_text p' hp' m' hm'
  rw [← h] at g3
  have := legacyText_unique (fun e he => hk e (h1.mem_iff.mp he)) (fun e he => hk' e (g1.mem_iff.mp he)) h3 g3
  subst this
  exact h1.symm.trans g1

/-- C87: a pattern of printable ASCII characters other than the quote and the backslash stands
    there as it is, between quotes. -/
theorem C87_plain (p : Char → Bool) (hp : AsciiPrint p) (s : Str)
    (h : ∀ c ∈ s, 32 ≤ c.toNat ∧ c.toNat ≤ 126 ∧ c ≠ '"' ∧ c ≠ '\\') : quote p s = "\"".toList ++ s ++ "\"".toList := by
  have : s.flatMap (quoteChar p) = s := by
    induction s with
    | nil => rfl
    | cons c s ih =>
      obtain ⟨a, b, d, e⟩ := h c (by simp)
      rw [List.flatMap_cons, ih fun x hx => h x (by simp [hx])]
      unfold quoteChar
      rw [if_neg (by simp [d, e]), if_pos ((hp c (by omega)).mpr ⟨a, b⟩)]
      rfl
  unfold quote
  rw [this]
  rfl

/-- C87, the code: with a newline in a report URI different subscriptions have the same text, whatever
    is printable. -/
theorem C87_newline : ∃ m m' : Subs, IsMap m ∧ IsMap m' ∧ ¬ m.Perm m' ∧ ∀ p, AsciiPrint p → legacyDump p m = legacyDump p m' := by
  refine ⟨[(['a', ' ', '[', '"', 'x', '"', ']', '\n', '-', '-', 'b'], [['y']])], [(['a'], [['x']]), (['b'], [['y']])],
    by decide, by decide, fun h => absurd h.length_eq (by simp), fun p hp => ?_⟩
  have hx : quote p ['x'] = ['"', 'x', '"'] := C87_plain p hp _ (by decide)
  have hy : quote p ['y'] = ['"', 'y', '"'] := C87_plain p hp _ (by decide)
  have one : ∀ (k : Str) (l : List Str), legacyDump p [(k, l)] = ['-', '-'] ++ k ++ [' '] ++ quoteList p l ++ ['\n'] := by
    intro k l
    simp [legacyDump, mapKeys, sortStrings, insertSorted, mapGet]
  have two : legacyDump p [(['a'], [['x']]), (['b'], [['y']])] = ['-', '-'] ++ ['a'] ++ [' '] ++ quoteList p [['x']] ++ ['\n'] ++
      (['-', '-'] ++ ['b'] ++ [' '] ++ quoteList p [['y']] ++ ['\n']) := by
    have e2 : mapKeys ([(['a'], [['x']]), (['b'], [['y']])] : Subs) = [['a'], ['b']] := by decide
    unfold legacyDump
    rw [e2]
    simp [mapGet]
  rw [one, two]
  simp [quoteList, hx, hy, List.intercalate]

/-- the printable ASCII characters -/
def toyPrint (c : Char) : Bool := decide (32 ≤ c.toNat ∧ c.toNat ≤ 126)

-- test: the hypothesis holds, and a text with escapes
example : AsciiPrint toyPrint := fun c _ => by simp [toyPrint]
example : legacyDump toyPrint [("http://b".toList, ["urn:epc:pat:x".toList, "q\"\\\n\t".toList ++ [Char.ofNat 1]]),
    ("http://a [".toList, ["é€😀".toList]), ("http://c".toList, [])] =
  "--http://a [ [\"\\u00e9\\u20ac\\U0001f600\"]\n--http://b [\"urn:epc:pat:x\" \"q\\\"\\\\\\n\\t\\x01\"]\n--http://c []\n".toList := by
  decide +kernel
-- test: another literal for the same text
example : Literal "a\n".toList "\"\\x61\\n\"".toList := by
  refine ⟨["\\x61".toList, "\\n".toList], .cons (.hex rfl (by decide) ?_) (.cons (.short (by decide)) .nil), rfl⟩
  exact .cons (v := 6) (.inl (by decide)) (.cons (v := 1) (.inl (by decide)) .nil)

end Gosstrak
