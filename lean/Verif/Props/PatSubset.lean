import Verif.Proofs.PatSubset

/-! # C84: the restructuring into groups (`makePatriciaSubset`) -/
namespace Gosstrak

/-- C84: on every flat map it ends, without a nil dereference. -/
theorem C84_terminates (b : FlatSubs) (hm : IsMap b) : ∃ b', makePatriciaSubset b = some b' ∧ IsMap b' := by
  obtain ⟨b', h1, h2, -⟩ := makePatriciaSubset_spec b hm
  exact ⟨b', h1, h2⟩

/-- C84: nothing is lost; the only pairs that come in addition are the words of the groups, without
    URI. -/
theorem C84_keeps (b : FlatSubs) (hm : IsMap b) (b' : BSub) (h : makePatriciaSubset b = some b') (q u : Str) :
    Full b' q u ↔ (q, u) ∈ b ∨ (u = [] ∧ IsGroup (b.map Prod.fst) q ∧ ∀ v, (q, v) ∉ b) := by
  obtain ⟨b'', h1, -, -, h4, -⟩ := makePatriciaSubset_spec b hm
  rw [h] at h1
  cases h1
  exact h4 q u

/-- C84: a word that comes in addition is the longest common start of two or more filters. -/
theorem C84_new_words (b : FlatSubs) (hm : IsMap b) (b' : BSub) (h : makePatriciaSubset b = some b') (q u : Str)
    (hf : Full b' q u) (hq : (q, u) ∉ b) :
    2 ≤ b.countP (fun e => decide (q <+: e.1)) ∧
    ∀ w, (∀ e ∈ b, q <+: e.1 → w <+: e.1) → w <+: q := by
  rcases (C84_keeps b hm b' h q u).mp hf with h' | ⟨-, hg, -⟩
  · exact absurd h' hq
  · have h1 := hg.count
    rw [List.countP_map] at h1
    refine ⟨h1, fun w hw => hg.noLonger w ?_⟩
    intro s hs hp
    obtain ⟨e, he, rfl⟩ := List.mem_map.mp hs
    exact hw e he hp

/-- C84: the filters left at the top are the words of the groups and the filters that no group starts. -/
theorem C84_top (b : FlatSubs) (hm : IsMap b) (b' : BSub) (h : makePatriciaSubset b = some b') (k : Str) :
    (∃ x, (k, x) ∈ b') ↔ IsGroup (b.map Prod.fst) k ∨
      ((∃ u, (k, u) ∈ b) ∧ ∀ g, IsGroup (b.map Prod.fst) g → ¬ g <+: k) := by
  obtain ⟨b'', h1, -, h3, -⟩ := makePatriciaSubset_spec b hm
  rw [h] at h1
  cases h1
  exact h3 k

/-- C84: every offset is the number of bits of the enclosing filters. -/
theorem C84_offsets (b : FlatSubs) (hm : IsMap b) (b' : BSub) (h : makePatriciaSubset b = some b') :
    Offsets 0 b' := by
  obtain ⟨b'', h1, -, -, -, h5, -⟩ := makePatriciaSubset_spec b hm
  rw [h] at h1
  cases h1
  exact h5

/-- C84: exactly the groups have filters below them, and below the top no filter is a prefix of another
    one at its level. -/
theorem C84_below (b : FlatSubs) (hm : IsMap b) (b' : BSub) (h : makePatriciaSubset b = some b')
    (k : Str) (o : Nat) (u : Str) (s : BSub) (hk : (k, PSub.mk o u s) ∈ b') :
    Linked s ∧ (s ≠ [] ↔ IsGroup (b.map Prod.fst) k) := by
  obtain ⟨b'', h1, -, -, -, -, h6⟩ := makePatriciaSubset_spec b hm
  rw [h] at h1
  cases h1
  exact ⟨(h6 k o u s hk).1, (h6 k o u s hk).2.1⟩

/-- C84: of the filters at the top none is started by a group, and no new group can be formed of them. -/
theorem C84_top_parts (b : FlatSubs) (hm : IsMap b) (b' : BSub) (h : makePatriciaSubset b = some b') :
    (∀ k k' x x', (k, x) ∈ b' → (k', x') ∈ b' → IsGroup (b.map Prod.fst) k → k <+: k' → k = k') ∧
    ∀ w, IsBitStr w → 2 ≤ b'.countP (fun e => decide (w <+: e.1)) →
      ∀ q, (∀ e ∈ b', w <+: e.1 → q <+: e.1) → q <+: w := by
  have htop := C84_top b hm b' h
  have hmap : IsMap b' := by
    obtain ⟨b'', h1, h2⟩ := C84_terminates b hm
    rw [h] at h1
    cases h1
    exact h2
  have hanti : ∀ k k' x x', (k, x) ∈ b' → (k', x') ∈ b' → IsGroup (b.map Prod.fst) k → k <+: k' → k = k' := by
    intro k k' x x' hk hk' hg hp
    rcases (htop k').mp ⟨x', hk'⟩ with hg' | ⟨-, hno⟩
    · exact hg.anti hg' hp (List.prefix_refl k')
    · exact absurd hp (hno k hg)
  refine ⟨hanti, fun w hw hc q hq => ?_⟩
  have hcol : ∃ D, Collapse (b.map Prod.fst) D (b'.map Prod.fst) ∧ ∀ K, IsGroup (b.map Prod.fst) K → K ∈ D := by
    classical
    refine ⟨(b'.map Prod.fst).filter (fun k => decide (IsGroup (b.map Prod.fst) k)), ⟨?_, ?_, hmap⟩, ?_⟩
    · intro K hK
      simpa using (List.mem_filter.mp hK).2
    · intro s
      have e : s ∈ b'.map Prod.fst ↔ ∃ x, (s, x) ∈ b' := by simp
      have e2 : s ∈ b.map Prod.fst ↔ ∃ x, (s, x) ∈ b := by simp
      have hin : ∀ K, K ∈ (b'.map Prod.fst).filter (fun k => decide (IsGroup (b.map Prod.fst) k)) ↔
          IsGroup (b.map Prod.fst) K := by
        intro K
        rw [List.mem_filter]
        have e : K ∈ b'.map Prod.fst ↔ ∃ x, (K, x) ∈ b' := by simp
        rw [e, htop]
        simp only [decide_eq_true_iff]
        exact ⟨fun h => h.2, fun h => ⟨Or.inl h, h⟩⟩
      rw [e, htop, hin, e2]
      simp only [hin]
    · intro K hK
      rw [List.mem_filter]
      have e : K ∈ b'.map Prod.fst ↔ ∃ x, (K, x) ∈ b' := by simp
      rw [e, htop]
      exact ⟨Or.inl hK, by simpa using hK⟩
  obtain ⟨D, hcol, hall⟩ := hcol
  have hnone : (findPartialLCP (b'.map Prod.fst)).1 = [] := by
    apply Classical.byContradiction
    intro hne
    obtain ⟨h1, h2⟩ := hcol.down (isGroup_findPartialLCP _ hne)
    exact h2 (hall _ h1)
  refine (findPartialLCP_none_iff _).mp hnone w hw ?_ q ?_
  · rw [List.countP_map]; exact hc
  · intro s hs hp
    obtain ⟨e, he, rfl⟩ := List.mem_map.mp hs
    exact hq e he hp

/-! Tests, with the entries listed as depth, filter, offset and URI. -/

private def rows : Nat → Nat → BSub → List (Nat × Str × Nat × Str)
  | 0, _, _ => []
  | n + 1, d, b => b.flatMap fun e => (d, e.1, e.2.offset, e.2.uri) :: rows n (d + 1) e.2.subset

private def flat1 : FlatSubs :=
  [("0011".toList, "c".toList), ("1".toList, "d".toList), ("00110".toList, "b".toList),
   ("0010".toList, "e".toList), ("110".toList, "a".toList), ("11".toList, "f".toList)]
example : IsMap flat1 := by decide +kernel
example : (makePatriciaSubset flat1).map (rows 9 0) = some
    [(0, "1".toList, 0, "d".toList), (0, "110".toList, 0, "a".toList), (0, "11".toList, 0, "f".toList),
     (0, "001".toList, 0, []), (1, "0".toList, 3, "e".toList), (1, "1".toList, 3, "c".toList),
       (2, "0".toList, 4, "b".toList)] := by
  decide +kernel

private def flat2 : FlatSubs :=
  [("0".toList, "a".toList), ("0000".toList, "b".toList), ("0001".toList, "c".toList), ("1".toList, "d".toList)]

/-- C84: the top is not free of prefixes: "0" stays beside the group "000". -/
theorem C84_top_not_prefix_free : ¬ ∀ b, IsMap b → (∀ e ∈ b, IsBitStr e.1) → ∀ b', makePatriciaSubset b = some b' →
    ∀ k k' x x', (k, x) ∈ b' → (k', x') ∈ b' → k <+: k' → k = k' := by
  intro h
  have hm : IsMap flat2 := by decide +kernel
  obtain ⟨b', h1, -⟩ := C84_terminates flat2 hm
  have e : (makePatriciaSubset flat2).map (List.map Prod.fst) = some ["0".toList, "1".toList, "000".toList] := by
    decide +kernel
  rw [h1, Option.map_some, Option.some.injEq] at e
  have ha : "0".toList ∈ b'.map Prod.fst := by rw [e]; decide
  have hb : "000".toList ∈ b'.map Prod.fst := by rw [e]; decide
  obtain ⟨⟨a, x⟩, hx, ea⟩ := List.mem_map.mp ha
  obtain ⟨⟨c, y⟩, hy, ec⟩ := List.mem_map.mp hb
  have := h flat2 hm (by decide +kernel) b' h1 a c x y hx hy (by
    simp only at ea ec; rw [ea, ec]; decide)
  simp only at ea ec
  rw [ea, ec] at this
  exact absurd this (by decide)

/-- C84: nor is it a Patricia trie: filters with the same first bit stay apart at one level. -/
theorem C84_not_patricia : ¬ ∀ b, IsMap b → (∀ e ∈ b, IsBitStr e.1) → ∀ b', makePatriciaSubset b = some b' →
    ∀ k k' x x', (k, x) ∈ b' → (k', x') ∈ b' → k.head? = k'.head? → k = k' := by
  intro h
  have hm : IsMap flat2 := by decide +kernel
  obtain ⟨b', h1, -⟩ := C84_terminates flat2 hm
  have e : (makePatriciaSubset flat2).map (List.map Prod.fst) = some ["0".toList, "1".toList, "000".toList] := by
    decide +kernel
  rw [h1, Option.map_some, Option.some.injEq] at e
  have ha : "0".toList ∈ b'.map Prod.fst := by rw [e]; decide
  have hb : "000".toList ∈ b'.map Prod.fst := by rw [e]; decide
  obtain ⟨⟨a, x⟩, hx, ea⟩ := List.mem_map.mp ha
  obtain ⟨⟨c, y⟩, hy, ec⟩ := List.mem_map.mp hb
  have := h flat2 hm (by decide +kernel) b' h1 a c x y hx hy (by
    simp only at ea ec; rw [ea, ec]; decide)
  simp only at ea ec
  rw [ea, ec] at this
  exact absurd this (by decide)

/-- C84: on a nested map filters are lost: a round with the common start `p` keeps nothing of what was
    below the filter `p` (lines 339-345 put the new subset in its place). -/
theorem C84_nested_lost (b : BSub) (hb : IsMap b) (p : Str) (b' : BSub) (h : patGroupRound b p = some b')
    (q v : Str) (hq : q ≠ []) (hno : ∀ k y, (k, y) ∈ b → k <+: p ++ q → k = p) : ¬ Full b' (p ++ q) v := by
  obtain ⟨b'', sb, r1, r2, r3, r4, r5⟩ := patGroupRound_spec b hb p
  rw [h] at r1
  cases r1
  rw [full_iff]
  rintro ⟨k, o, u, s, hk, hc⟩
  rw [← mapGet_iff r2, r5] at hk
  by_cases hkp : k = p
  · subst hkp
    rw [if_pos rfl] at hk
    injection hk with hk
    injection hk with _ _ hk
    subst hk
    rcases hc with ⟨hc, -⟩ | ⟨q', hc, hf⟩
    · exact hq (by simpa using hc)
    · obtain rfl : q = q' := List.append_cancel_left hc
      rw [full_iff] at hf
      obtain ⟨d, o', u', s', hd, hc'⟩ := hf
      rw [← mapGet_iff r3, r4] at hd
      have hdq : d <+: q := by
        rcases hc' with ⟨rfl, -⟩ | ⟨q', rfl, -⟩
        · exact List.prefix_refl _
        · exact List.prefix_append _ _
      split at hd
      · exact absurd hd (by simp)
      · rename_i hd0
        rw [Option.map_eq_some_iff] at hd
        obtain ⟨y, hy, -⟩ := hd
        have := hno _ y (mapGet_mem hy) ((List.prefix_append_right_inj k).mpr hdq)
        exact hd0 (by simpa using this)
  · rw [if_neg hkp] at hk
    split at hk
    · exact absurd hk (by simp)
    · have hkq : k <+: p ++ q := by
        rcases hc with ⟨hc, -⟩ | ⟨q', hc, -⟩
        · rw [hc]; exact List.prefix_refl _
        · rw [hc]; exact List.prefix_append _ _
      exact hkp (hno k _ (mapGet_mem hk) hkq)

-- test: "01" with the URI "b" was there, below "0", and "0" is the common start found
private def nested : BSub :=
  [("0".toList, .mk 0 "a".toList [("1".toList, .mk 1 "b".toList [])]), ("00".toList, .mk 0 "c".toList [])]
example : Full nested "01".toList "b".toList :=
  .under (k := "0".toList) (q := "1".toList) (List.mem_cons_self) (.here (List.mem_cons_self))
example : findPartialLCP (mapKeys nested) = ("0".toList, 2) := by decide +kernel
example : (patSubset 2 3 nested).map (rows 9 0) = some
    [(0, "0".toList, 0, "a".toList), (1, "0".toList, 1, "c".toList)] := by decide +kernel

end Gosstrak
