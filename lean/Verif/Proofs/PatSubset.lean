import Verif.Model.PatSubset
import Verif.Proofs.PartialLCP
import Verif.Proofs.Linked
import Verif.Proofs.Heap

/-! `makePatriciaSubset`: the loop replaces whole groups of filters. -/
namespace Gosstrak

theorem append_drop_of_prefix {p s : Str} (h : p <+: s) : p ++ s.drop p.length = s := by
  obtain ⟨d, rfl⟩ := h
  simp

theorem hasPrefix_eq (s p : Str) : hasPrefix s p = decide (p <+: s) := by
  rw [Bool.eq_iff_iff, decide_eq_true_iff]
  unfold hasPrefix
  rw [List.isPrefixOf_iff_prefix]

theorem patGroupFold_spec (p : Str) (cur : Nat) : ∀ (ks : List Str) (st : BSub × BSub × Option PSub), ks.Nodup →
    (∀ k ∈ ks, ∃ x, mapGet st.1 k = some x) → IsMap st.1 → IsMap st.2.1 →
    ∃ st', ks.foldlM (patGroupStep p cur) st = some st' ∧ IsMap st'.1 ∧ IsMap st'.2.1 ∧
      (∀ k, mapGet st'.1 k = if k ∈ ks ∧ p <+: k then none else mapGet st.1 k) ∧
      (∀ d, mapGet st'.2.1 d = if d ≠ [] ∧ p ++ d ∈ ks then
        (mapGet st.1 (p ++ d)).map (fun x => .mk (cur + p.length) x.uri x.subset) else mapGet st.2.1 d) ∧
      st'.2.2 = if p ∈ ks then (mapGet st.1 p).map (fun x => .mk cur x.uri x.subset) else st.2.2 := by
  intro ks
  induction ks with
  | nil => intro st _ _ h1 h2; exact ⟨st, rfl, h1, h2, by simp, by simp, by simp⟩
  | cons fs ks ih =>
    intro st hnd hk h1 h2
    obtain ⟨hnot, hnd⟩ := List.nodup_cons.mp hnd
    obtain ⟨x, hx⟩ := hk fs (by simp)
    have hk' : ∀ k ∈ ks, ∃ x, mapGet (mapDelete st.1 fs) k = some x := by
      intro k hks
      obtain ⟨y, hy⟩ := hk k (by simp [hks])
      refine ⟨y, ?_⟩
      rw [mapGet_mapDelete, if_neg (by rintro rfl; exact hnot hks)]
      exact hy
    rw [List.foldlM_cons]
    by_cases he : fs = p
    · subst he
      have e1 : patGroupStep fs cur st fs =
          some (mapDelete st.1 fs, st.2.1, some (.mk cur x.uri x.subset)) := by
        unfold patGroupStep
        rw [if_pos rfl, hx]
      rw [e1]
      obtain ⟨st', g1, g2, g3, g4, g5, g6⟩ := ih (mapDelete st.1 fs, st.2.1, some (.mk cur x.uri x.subset))
        hnd hk' (isMap_mapDelete h1 fs) h2
      refine ⟨st', g1, g2, g3, ?_, ?_, ?_⟩
      · intro k
        rw [g4, mapGet_mapDelete]
        by_cases hkf : k = fs
        · subst hkf; simp
        · simp [hkf, Ne.symm hkf]
      · intro d
        rw [g5, mapGet_mapDelete]
        by_cases hd : d = []
        · subst hd; simp
        · have : fs ++ d ≠ fs := by simpa using hd
          have hd' : ¬ fs = fs ++ d := fun e => this e.symm
          simp [hd]
      · rw [g6, if_neg hnot, if_pos (by simp), hx]
        rfl
    · by_cases hp : p <+: fs
      · have e1 : patGroupStep p cur st fs = some (mapDelete st.1 fs,
            mapSet st.2.1 (fs.drop p.length) (.mk (cur + p.length) x.uri x.subset), st.2.2) := by
          unfold patGroupStep
          rw [if_neg he, hasPrefix_eq, if_pos (by simpa using hp), hx]
        rw [e1]
        obtain ⟨st', g1, g2, g3, g4, g5, g6⟩ := ih (mapDelete st.1 fs,
            mapSet st.2.1 (fs.drop p.length) (.mk (cur + p.length) x.uri x.subset), st.2.2)
          hnd hk' (isMap_mapDelete h1 fs) (isMap_mapSet h2 _ _)
        refine ⟨st', g1, g2, g3, ?_, ?_, ?_⟩
        · intro k
          rw [g4, mapGet_mapDelete]
          by_cases hkf : k = fs
          · subst hkf; simp [hp]
          · simp [hkf, Ne.symm hkf]
        · intro d
          rw [g5, mapGet_mapDelete, mapGet_mapSet]
          have hfs := append_drop_of_prefix hp
          by_cases hd : fs = p ++ d
          · subst hd
            have hd0 : d ≠ [] := by rintro rfl; exact he (by simp)
            rw [if_neg (show ¬ (d ≠ [] ∧ p ++ d ∈ ks) from fun h => hnot h.2),
              if_pos (show (p ++ d).drop p.length = d by simp),
              if_pos (show d ≠ [] ∧ p ++ d ∈ (p ++ d) :: ks from ⟨hd0, by simp⟩), hx]
            rfl
          · have hd2 : ¬ fs.drop p.length = d := by
              rintro rfl; exact hd hfs.symm
            rw [if_neg hd, if_neg hd2]
            have hd3 : ¬ p ++ d = fs := fun e => hd e.symm
            simp [hd3]
        · rw [g6]
          dsimp only
          rw [mapGet_mapDelete, if_neg he]
          have : ¬ p = fs := fun e => he e.symm
          simp [this]
      · have e1 : patGroupStep p cur st fs = some st := by
          unfold patGroupStep
          rw [if_neg he, hasPrefix_eq, if_neg (by simpa using hp)]
        rw [e1]
        obtain ⟨st', g1, g2, g3, g4, g5, g6⟩ := ih st hnd (fun k h => hk k (by simp [h])) h1 h2
        refine ⟨st', g1, g2, g3, ?_, ?_, ?_⟩
        · intro k
          rw [g4]
          by_cases hkf : k = fs
          · subst hkf; simp [hp]
          · simp [hkf]
        · intro d
          rw [g5]
          have : ¬ p ++ d = fs := by rintro rfl; exact hp (by simp)
          simp [this]
        · rw [g6]
          have : ¬ p = fs := fun e => he e.symm
          simp [this]

theorem mapGet_keys {α : Type} {b : List (Str × α)} (k : Str) : k ∈ mapKeys b ↔ ∃ x, mapGet b k = some x := by
  rw [mem_mapKeys, mapGet_isSome]

theorem patGroupRound_spec (b : BSub) (hb : IsMap b) (p : Str) : ∃ b' sb, patGroupRound b p = some b' ∧ IsMap b' ∧
    IsMap sb ∧
    (∀ d, mapGet sb d = if d = [] then none else
      (mapGet b (p ++ d)).map (fun x => .mk (firstOffset b + p.length) x.uri x.subset)) ∧
    (∀ k, mapGet b' k = if k = p then some (.mk (firstOffset b) (((mapGet b p).map PSub.uri).getD []) sb)
      else if p <+: k then none else mapGet b k) := by
  obtain ⟨⟨b1, sb, sup⟩, g1, g2, g3, g4, g5, g6⟩ := patGroupFold_spec p (firstOffset b) (mapKeys b) (b, [], none)
    (nodup_mapKeys hb) (fun k hk => (mapGet_keys k).mp hk) hb (by simp [IsMap])
  dsimp only at g2 g3 g4 g5 g6
  have hb1 : ∀ k, mapGet b1 k = if p <+: k then none else mapGet b k := by
    intro k
    rw [g4]
    by_cases hk : k ∈ mapKeys b
    · simp [hk]
    · have : mapGet b k = none := by
        cases h : mapGet b k with
        | none => rfl
        | some x => exact absurd ((mapGet_keys k).mpr ⟨x, h⟩) hk
      simp [this]
  have hsb : ∀ d, mapGet sb d = if d = [] then none else
      (mapGet b (p ++ d)).map (fun x => .mk (firstOffset b + p.length) x.uri x.subset) := by
    intro d
    rw [g5]
    by_cases hd : d = []
    · simp [hd, mapGet]
    · by_cases hk : p ++ d ∈ mapKeys b
      · simp [hd, hk]
      · have : mapGet b (p ++ d) = none := by
          cases h : mapGet b (p ++ d) with
          | none => rfl
          | some x => exact absurd ((mapGet_keys _).mpr ⟨x, h⟩) hk
        simp [hd, hk, this, mapGet]
  cases hp : mapGet b p with
  | none =>
    have hs : sup = none := by
      rw [g6, hp]; simp
    refine ⟨mapSet b1 p (.mk (firstOffset b) [] sb), sb, ?_, isMap_mapSet g2 _ _, g3, hsb, ?_⟩
    · unfold patGroupRound
      rw [g1, hs]
    · intro k
      rw [mapGet_mapSet, hb1]
      by_cases h : k = p
      · simp [h]
      · simp [h, Ne.symm h]
  | some x =>
    have hs : sup = some (.mk (firstOffset b) x.uri x.subset) := by
      rw [g6, hp, if_pos ((mapGet_keys p).mpr ⟨x, hp⟩)]
      rfl
    refine ⟨mapSet b1 p (.mk (firstOffset b) x.uri sb), sb, ?_, isMap_mapSet g2 _ _, g3, hsb, ?_⟩
    · unfold patGroupRound
      rw [g1, hs]
      rfl
    · intro k
      rw [mapGet_mapSet, hb1]
      by_cases h : k = p
      · simp [h]
      · simp [h, Ne.symm h]

/-- the entry that stands for a group -/
structure GroupEntry (b0 : FlatSubs) (K : Str) (x : PSub) : Prop where
  offset : x.offset = 0
  uri : x.uri = (mapGet b0 K).getD []
  isMap : IsMap x.subset
  sub : ∀ d, mapGet x.subset d = if d = [] then none else
    (mapGet b0 (K ++ d)).map (fun u => .mk K.length u [])

/-- the map when the groups `D` have been replaced -/
structure PInv (b0 : FlatSubs) (D : List Str) (b : BSub) : Prop where
  isMap : IsMap b
  group : ∀ K ∈ D, IsGroup (b0.map Prod.fst) K
  entry : ∀ K ∈ D, ∃ x, mapGet b K = some x ∧ GroupEntry b0 K x
  free : ∀ K, (∀ G ∈ D, ¬ G <+: K) → mapGet b K = (mapGet b0 K).map (fun u => .mk 0 u [])
  gone : ∀ K, K ∉ D → ∀ G ∈ D, G <+: K → mapGet b K = none

theorem PInv.collapse {b0 : FlatSubs} {D : List Str} {b : BSub} (h : PInv b0 D b) :
    Collapse (b0.map Prod.fst) D (mapKeys b) := by
  refine ⟨h.group, ?_, nodup_mapKeys h.isMap⟩
  intro s
  rw [mapGet_keys, ← mapGet_isSome]
  constructor
  · rintro ⟨x, hx⟩
    by_cases hD : s ∈ D
    · exact Or.inl hD
    · right
      have hno : ∀ K ∈ D, ¬ K <+: s := by
        intro K hK hp
        rw [h.gone s hD K hK hp] at hx
        exact absurd hx (by simp)
      refine ⟨?_, hno⟩
      rw [h.free s hno] at hx
      cases hg : mapGet b0 s with
      | none => rw [hg] at hx; exact absurd hx (by simp)
      | some u => exact ⟨u, rfl⟩
  · rintro (hD | ⟨⟨u, hu⟩, hno⟩)
    · obtain ⟨x, hx, -⟩ := h.entry s hD
      exact ⟨x, hx⟩
    · exact ⟨_, by rw [h.free s hno, hu]; rfl⟩

theorem PInv.offset {b0 : FlatSubs} {D : List Str} {b : BSub} (h : PInv b0 D b) {k : Str} {x : PSub}
    (hx : mapGet b k = some x) : x.offset = 0 := by
  rcases (h.collapse.mem k).mp ((mapGet_keys k).mpr ⟨x, hx⟩) with hD | ⟨-, hno⟩
  · obtain ⟨y, hy, he⟩ := h.entry k hD
    rw [hx] at hy
    cases hy
    exact he.offset
  · rw [h.free k hno] at hx
    cases hg : mapGet b0 k with
    | none => rw [hg] at hx; exact absurd hx (by simp)
    | some u => rw [hg] at hx; cases hx; rfl

theorem PInv.firstOffset {b0 : FlatSubs} {D : List Str} {b : BSub} (h : PInv b0 D b) : firstOffset b = 0 := by
  unfold Gosstrak.firstOffset
  split
  · rfl
  · split
    · rfl
    · rename_i hx
      exact h.offset hx

theorem length_mapKeys {α : Type} (m : List (Str × α)) : (mapKeys m).length = m.length := by
  unfold mapKeys
  rw [(sortStrings_perm _).length_eq, List.length_map]

/-- one round -/
theorem PInv.round {b0 : FlatSubs} {D : List Str} {b : BSub} (h : PInv b0 D b)
    {p : Str} (hg : IsGroup (mapKeys b) p) :
    ∃ b', patGroupRound b p = some b' ∧ PInv b0 (p :: D) b' ∧ b'.length < b.length := by
  obtain ⟨g0, hpD⟩ := h.collapse.down hg
  have hno : ∀ s, p <+: s → ∀ G ∈ D, ¬ G <+: s := by
    intro s hp G hG hGs
    exact hpD ((g0.anti (h.group G hG) hp hGs) ▸ hG)
  obtain ⟨b', sb, r1, r2, r3, r4, r5⟩ := patGroupRound_spec b h.isMap p
  rw [h.firstOffset] at r4 r5
  refine ⟨b', r1, ⟨r2, ?_, ?_, ?_, ?_⟩, ?_⟩
  · intro K hK
    rcases List.mem_cons.mp hK with rfl | hK
    · exact g0
    · exact h.group K hK
  · intro K hK
    by_cases hKp : K = p
    · subst hKp
      refine ⟨.mk 0 (((mapGet b K).map PSub.uri).getD []) sb, by rw [r5, if_pos rfl], rfl, ?_, r3, ?_⟩
      · show ((mapGet b K).map PSub.uri).getD [] = _
        rw [h.free K (hno K (List.prefix_refl K))]
        cases mapGet b0 K <;> rfl
      · intro d
        show mapGet sb d = _
        rw [r4, h.free (K ++ d) (hno _ (List.prefix_append K d))]
        split
        · rfl
        · rw [Option.map_map, Nat.zero_add]
          rfl
    · have hK := (List.mem_cons.mp hK).resolve_left hKp
      obtain ⟨x, hx, he⟩ := h.entry K hK
      refine ⟨x, ?_, he⟩
      rw [r5, if_neg hKp, if_neg (fun hp => hno K hp K hK (List.prefix_refl K))]
      exact hx
  · intro K hK
    have h1 : ¬ p <+: K := hK p (by simp)
    have h2 : K ≠ p := by rintro rfl; exact h1 (List.prefix_refl _)
    rw [r5, if_neg h2, if_neg h1]
    exact h.free K fun G hG => hK G (by simp [hG])
  · intro K hK G hG hp
    have h2 : K ≠ p := by rintro rfl; exact hK (by simp)
    rw [r5, if_neg h2]
    split
    · rfl
    · rename_i h1
      rcases List.mem_cons.mp hG with rfl | hG
      · exact absurd hp h1
      · exact h.gone K (fun hD => hK (by simp [hD])) G hG hp
  · obtain ⟨f, hf⟩ : ∃ f : Str → Bool, ∀ s, f s = true ↔ ¬ p <+: s := ⟨fun s => !decide (p <+: s), by simp⟩
    have hsub : mapKeys b' ⊆ p :: (mapKeys b).filter f := by
      intro k hk
      obtain ⟨x, hx⟩ := (mapGet_keys k).mp hk
      rw [r5] at hx
      by_cases hkp : k = p
      · simp [hkp]
      · rw [if_neg hkp] at hx
        split at hx
        · exact absurd hx (by simp)
        · rename_i hp
          exact List.mem_cons_of_mem _ (List.mem_filter.mpr ⟨(mapGet_keys k).mpr ⟨x, hx⟩, (hf k).mpr hp⟩)
    have hle := List.Nodup.length_le_of_subset (nodup_mapKeys r2) hsub
    have hcount := hg.count
    have hsplit : ∀ m : List Str, m.length = m.countP (fun s => decide (p <+: s)) +
        (m.filter f).length := by
      intro m
      induction m with
      | nil => rfl
      | cons a m ih =>
        rw [List.countP_cons, List.filter_cons, List.length_cons]
        by_cases h : p <+: a
        · have h' : f a = false := by rw [← Bool.not_eq_true, hf]; simpa using h
          simp [h, h']; omega
        · simp [h, (hf a).mpr h]; omega
    have hsplit := hsplit (mapKeys b)
    rw [length_mapKeys, List.length_cons] at hle
    rw [length_mapKeys] at hsplit
    omega

theorem patGroupLoop_spec (b0 : FlatSubs) : ∀ (fuel : Nat) (D : List Str) (b : BSub), PInv b0 D b →
    b.length ≤ fuel → ∃ D' b', patGroupLoop fuel b = some b' ∧ PInv b0 D' b' ∧
      (findPartialLCP (mapKeys b')).1 = [] := by
  intro fuel
  induction fuel with
  | zero =>
    intro D b h hl
    have hb : b = [] := List.length_eq_zero_iff.mp (Nat.le_zero.mp hl)
    have e : findPartialLCP (mapKeys b) = ([], 0) :=
      findPartialLCP_short (by rw [length_mapKeys]; omega)
    refine ⟨D, b, ?_, h, by rw [e]⟩
    unfold patGroupLoop
    rw [e]
    rfl
  | succ fuel ih =>
    intro D b h hl
    rcases findPartialLCP_ok (mapKeys b) with e | ⟨hne, h2, -⟩
    · refine ⟨D, b, ?_, h, by rw [e]⟩
      unfold patGroupLoop
      rw [e]
      rfl
    · obtain ⟨b', r1, r2, r3⟩ := h.round (isGroup_findPartialLCP _ hne)
      obtain ⟨D', b'', i1, i2, i3⟩ := ih _ b' r2 (by omega)
      refine ⟨D', b'', ?_, i2, i3⟩
      unfold patGroupLoop
      rw [if_neg (by omega)]
      dsimp only
      rw [r1]
      exact i1

theorem mapGet_ofFlat (b : FlatSubs) (k : Str) : mapGet (ofFlat b) k = (mapGet b k).map (fun u => .mk 0 u []) := by
  unfold ofFlat
  induction b with
  | nil => rfl
  | cons e b ih =>
    simp only [List.map_cons, mapGet, ih]
    split <;> rfl

theorem pinv_start (b0 : FlatSubs) (hm : IsMap b0) : PInv b0 [] (ofFlat b0) := by
  refine ⟨?_, by simp, by simp, fun K _ => mapGet_ofFlat b0 K, by simp⟩
  unfold IsMap ofFlat
  rw [List.map_map]
  exact hm

/-- what linking does to one entry -/
def LinkedFrom (x y : PSub) : Prop :=
  y.offset = x.offset ∧ y.uri = x.uri ∧ Linked y.subset ∧ (∀ q u, Full y.subset q u ↔ Full x.subset q u) ∧
    (∀ n, Offsets n x.subset → Offsets n y.subset) ∧
    ((∀ k p, (k, p) ∈ x.subset → k ≠ []) → ∀ k p, (k, p) ∈ y.subset → k ≠ [])

theorem linkUnderFold_spec (m : Nat) : ∀ (ks : List Str) (b : BSub), ks.Nodup → IsMap b →
    (∀ k ∈ ks, ∃ x, mapGet b k = some x ∧ LinkOk (link m) x.subset) →
    ∃ b', ks.foldlM (linkUnder m) b = some b' ∧ IsMap b' ∧ (∀ k, k ∉ ks → mapGet b' k = mapGet b k) ∧
      ∀ k ∈ ks, ∀ x, mapGet b k = some x → ∃ y, mapGet b' k = some y ∧ LinkedFrom x y := by
  intro ks
  induction ks with
  | nil => intro b _ h _; exact ⟨b, rfl, h, fun _ _ => rfl, by simp⟩
  | cons fs ks ih =>
    intro b hnd hb hk
    obtain ⟨hnot, hnd⟩ := List.nodup_cons.mp hnd
    obtain ⟨x, hx, hl⟩ := hk fs (by simp)
    have step : ∃ b1 y, linkUnder m b fs = some b1 ∧ IsMap b1 ∧ (∀ k, k ≠ fs → mapGet b1 k = mapGet b k) ∧
        mapGet b1 fs = some y ∧ LinkedFrom x y := by
      unfold linkUnder
      rw [hx]
      dsimp only
      by_cases h0 : x.subset.length ≠ 0
      · rw [if_pos h0]
        obtain ⟨s, l1, l2, l3, l4, l5⟩ := hl
        rw [l1]
        refine ⟨_, .mk x.offset x.uri s, rfl, isMap_mapSet hb _ _, ?_, ?_, rfl, rfl, l2, l3, l4, l5⟩
        · intro k hkf
          rw [mapGet_mapSet, if_neg (fun e => hkf e.symm)]
        · rw [mapGet_mapSet, if_pos rfl]
      · rw [if_neg h0]
        have hs : x.subset = [] := List.length_eq_zero_iff.mp (Classical.not_not.mp h0)
        refine ⟨b, x, rfl, hb, fun _ _ => rfl, hx, rfl, rfl, ?_, fun _ _ => Iff.rfl, fun _ h => h, fun h => h⟩
        rw [hs]
        exact linked_nil
    obtain ⟨b1, y, s1, s2, s3, s4, s5⟩ := step
    have hne : ∀ k ∈ ks, k ≠ fs := fun k hks e => hnot (e ▸ hks)
    obtain ⟨b', i1, i2, i3, i4⟩ := ih b1 hnd s2 (by
      intro k hks
      rw [s3 k (hne k hks)]
      exact hk k (by simp [hks]))
    refine ⟨b', ?_, i2, ?_, ?_⟩
    · rw [List.foldlM_cons, s1]
      exact i1
    · intro k hks
      rw [i3 k fun h => hks (by simp [h]), s3 k fun h => hks (by simp [h])]
    · intro k hks z hz
      by_cases he : k = fs
      · subst he
        rw [hx] at hz
        cases hz
        exact ⟨y, by rw [i3 k hnot]; exact s4, s5⟩
      · have hks := (List.mem_cons.mp hks).resolve_left he
        exact i4 k hks z (by rw [s3 k he]; exact hz)

theorem GroupEntry.mem {b0 : FlatSubs} {K : Str} {x : PSub} (h : GroupEntry b0 K x) (hm : IsMap b0)
    (d : Str) (y : PSub) : (d, y) ∈ x.subset ↔ d ≠ [] ∧ ∃ u, (K ++ d, u) ∈ b0 ∧ y = .mk K.length u [] := by
  rw [← mapGet_iff h.isMap, h.sub]
  by_cases hd : d = []
  · simp [hd]
  · simp only [hd, if_false, Option.map_eq_some_iff, ne_eq, not_false_iff, true_and, mapGet_iff hm]
    constructor
    · rintro ⟨u, h1, h2⟩; exact ⟨u, h1, h2.symm⟩
    · rintro ⟨u, h1, h2⟩; exact ⟨u, h1, h2.symm⟩

theorem GroupEntry.full {b0 : FlatSubs} {K : Str} {x : PSub} (h : GroupEntry b0 K x) (hm : IsMap b0)
    (q u : Str) : Full x.subset q u ↔ q ≠ [] ∧ (K ++ q, u) ∈ b0 := by
  rw [full_iff]
  constructor
  · rintro ⟨k, o, v, s, hk, hc⟩
    rw [h.mem hm] at hk
    obtain ⟨h1, u', h2, h3⟩ := hk
    injection h3 with h3 h4 h5
    subst h3; subst h4; subst h5
    rcases hc with ⟨rfl, rfl⟩ | ⟨q', -, hf⟩
    · exact ⟨h1, h2⟩
    · exact absurd hf (full_nil _ _)
  · rintro ⟨h1, h2⟩
    exact ⟨q, K.length, u, [], (h.mem hm _ _).mpr ⟨h1, u, h2, rfl⟩, Or.inl ⟨rfl, rfl⟩⟩

theorem GroupEntry.linkOk {b0 : FlatSubs} {K : Str} {x : PSub} (h : GroupEntry b0 K x) (hm : IsMap b0) :
    LinkOk (link (maxKeyLength b0 + 1)) x.subset := by
  have hs : ∀ k o u s, (k, PSub.mk o u s) ∈ x.subset → s = [] := by
    intro k o u s hk
    obtain ⟨-, u', -, h3⟩ := (h.mem hm _ _).mp hk
    injection h3
  refine link_recOk (maxKeyLength b0) x.subset ⟨h.isMap, ?_, ?_, ?_⟩ ?_ ?_
  · intro k o u s hk; rw [hs k o u s hk]; exact linked_nil
  · intro k o u s hk; rw [hs k o u s hk]; simp
  · intro k o u s k' o' u' s' hk hk' _
    refine ⟨hs _ _ _ _ hk', ?_⟩
    intro q v hq
    rw [hs _ _ _ _ hk] at hq
    exact absurd hq (full_nil _ _)
  · intro k p hk
    exact ((h.mem hm _ _).mp hk).1
  · intro q u hq
    have := le_maxKeyLength b0 _ ((h.full hm q u).mp hq).2
    simp only [List.length_append] at this
    omega

/-- Everything about the result. -/
theorem makePatriciaSubset_spec (b0 : FlatSubs) (hm : IsMap b0) : ∃ b', makePatriciaSubset b0 = some b' ∧
    IsMap b' ∧
    (∀ K, (∃ x, (K, x) ∈ b') ↔ IsGroup (b0.map Prod.fst) K ∨
      ((∃ u, (K, u) ∈ b0) ∧ ∀ G, IsGroup (b0.map Prod.fst) G → ¬ G <+: K)) ∧
    (∀ q u, Full b' q u ↔ (q, u) ∈ b0 ∨ (u = [] ∧ IsGroup (b0.map Prod.fst) q ∧ ∀ v, (q, v) ∉ b0)) ∧
    Offsets 0 b' ∧
    (∀ K o u s, (K, PSub.mk o u s) ∈ b' → Linked s ∧ (s ≠ [] ↔ IsGroup (b0.map Prod.fst) K) ∧
      ∀ k p, (k, p) ∈ s → k ≠ []) := by
  obtain ⟨D, b1, l1, hI, hnone⟩ := patGroupLoop_spec b0 b0.length [] (ofFlat b0) (pinv_start b0 hm)
    (by unfold ofFlat; rw [List.length_map]; omega)
  have hD : ∀ K, IsGroup (b0.map Prod.fst) K ↔ K ∈ D := by
    intro K
    refine ⟨fun hg => ?_, hI.group K⟩
    apply Classical.byContradiction
    intro hK
    exact not_isGroup_of_none hnone K (hI.collapse.up hm hg hK)
  have hflat : ∀ K x, mapGet b1 K = some x → K ∉ D → (∀ G ∈ D, ¬ G <+: K) ∧ ∃ u, (K, u) ∈ b0 ∧ x = .mk 0 u [] := by
    intro K x hx hK
    have hno : ∀ G ∈ D, ¬ G <+: K := by
      intro G hG hp
      rw [hI.gone K hK G hG hp] at hx
      exact absurd hx (by simp)
    rw [hI.free K hno, Option.map_eq_some_iff] at hx
    obtain ⟨u, hu, e⟩ := hx
    exact ⟨hno, u, mapGet_mem hu, e.symm⟩
  obtain ⟨b', f1, f2, f3, f4⟩ := linkUnderFold_spec (maxKeyLength b0 + 1) (mapKeys b1) b1 (nodup_mapKeys hI.isMap)
    hI.isMap (by
      intro k hk
      obtain ⟨x, hx⟩ := (mapGet_keys k).mp hk
      refine ⟨x, hx, ?_⟩
      by_cases hK : k ∈ D
      · obtain ⟨y, hy, he⟩ := hI.entry k hK
        rw [hx] at hy
        cases hy
        exact he.linkOk hm
      · obtain ⟨-, u, -, rfl⟩ := hflat k x hx hK
        exact ⟨[], rfl, linked_nil, fun _ _ => Iff.rfl, fun _ h => h, fun h => h⟩)
  -- the entries of the result and those after the loop
  have hback : ∀ k y, (k, y) ∈ b' → ∃ x, mapGet b1 k = some x ∧ LinkedFrom x y := by
    intro k y hy
    rw [← mapGet_iff f2] at hy
    by_cases hk : k ∈ mapKeys b1
    · obtain ⟨x, hx⟩ := (mapGet_keys k).mp hk
      obtain ⟨y', hy', hl⟩ := f4 k hk x hx
      rw [hy] at hy'
      cases hy'
      exact ⟨x, hx, hl⟩
    · rw [f3 k hk] at hy
      exact absurd ((mapGet_keys k).mpr ⟨y, hy⟩) hk
  have hforth : ∀ k x, mapGet b1 k = some x → ∃ y, (k, y) ∈ b' ∧ LinkedFrom x y := by
    intro k x hx
    obtain ⟨y, hy, hl⟩ := f4 k ((mapGet_keys k).mpr ⟨x, hx⟩) x hx
    exact ⟨y, mapGet_mem hy, hl⟩
  refine ⟨b', ?_, f2, ?_, ?_, ?_, ?_⟩
  · unfold makePatriciaSubset patSubset
    rw [l1]
    exact f1
  · intro K
    have e : (∃ x, (K, x) ∈ b') ↔ K ∈ mapKeys b1 := by
      rw [mapGet_keys]
      constructor
      · rintro ⟨y, hy⟩
        obtain ⟨x, hx, -⟩ := hback K y hy
        exact ⟨x, hx⟩
      · rintro ⟨x, hx⟩
        obtain ⟨y, hy, -⟩ := hforth K x hx
        exact ⟨y, hy⟩
    rw [e, hI.collapse.mem, hD]
    have e2 : K ∈ b0.map Prod.fst ↔ ∃ u, (K, u) ∈ b0 := by simp
    rw [e2]
    simp only [hD]
  · intro q u
    rw [full_iff]
    constructor
    · rintro ⟨k, o, v, s, hk, hc⟩
      obtain ⟨x, hx, e1, e2, e3, e4, e5⟩ := hback _ _ hk
      dsimp only [PSub.offset, PSub.uri, PSub.subset] at e1 e2 e3 e4 e5
      by_cases hK : k ∈ D
      · obtain ⟨y, hy, he⟩ := hI.entry k hK
        rw [hx] at hy
        cases hy
        rcases hc with ⟨rfl, rfl⟩ | ⟨q', rfl, hf⟩
        · change u = x.uri at e2
          rw [he.uri] at e2
          cases hg : mapGet b0 q with
          | none =>
            rw [hg] at e2
            refine Or.inr ⟨e2, (hD q).mpr hK, fun v hv => ?_⟩
            rw [← mapGet_iff hm, hg] at hv
            exact absurd hv (by simp)
          | some w =>
            rw [hg] at e2
            exact Or.inl (by rw [e2]; exact mapGet_mem hg)
        · exact Or.inl ((he.full hm q' u).mp ((e4 q' u).mp hf)).2
      · obtain ⟨-, w, hw, rfl⟩ := hflat k x hx hK
        dsimp only [PSub.offset, PSub.uri, PSub.subset] at e2 e4
        rcases hc with ⟨rfl, rfl⟩ | ⟨q', rfl, hf⟩
        · left; rw [e2]; exact hw
        · exact absurd ((e4 q' u).mp hf) (full_nil _ _)
    · rintro (hq | ⟨rfl, hg, hno⟩)
      · by_cases hex : ∃ G ∈ D, G <+: q
        · obtain ⟨G, hG, d, rfl⟩ := hex
          obtain ⟨x, hx, he⟩ := hI.entry G hG
          obtain ⟨⟨o, v, s⟩, hy, e1, e2, e3, e4, e5⟩ := hforth G x hx
          dsimp only [PSub.offset, PSub.uri, PSub.subset] at e1 e2 e3 e4 e5
          by_cases hd : d = []
          · subst hd
            rw [List.append_nil] at hq ⊢
            refine ⟨G, o, v, s, hy, Or.inl ⟨rfl, ?_⟩⟩
            change v = x.uri at e2
            rw [e2, he.uri, (mapGet_iff hm _ _).mpr hq]
            rfl
          · exact ⟨G, o, v, s, hy, Or.inr ⟨d, rfl, (e4 d u).mpr ((he.full hm d u).mpr ⟨hd, hq⟩)⟩⟩
        · have hx := hI.free q fun G hG hp => hex ⟨G, hG, hp⟩
          rw [(mapGet_iff hm _ _).mpr hq] at hx
          obtain ⟨⟨o, v, s⟩, hy, e1, e2, -⟩ := hforth q _ hx
          refine ⟨q, o, v, s, hy, Or.inl ⟨rfl, ?_⟩⟩
          exact e2.symm
      · obtain ⟨x, hx, he⟩ := hI.entry q ((hD q).mp hg)
        obtain ⟨⟨o, v, s⟩, hy, e1, e2, -⟩ := hforth q x hx
        refine ⟨q, o, v, s, hy, Or.inl ⟨rfl, ?_⟩⟩
        change v = x.uri at e2
        have : mapGet b0 q = none := by
          cases h : mapGet b0 q with
          | none => rfl
          | some w => exact absurd (mapGet_mem h) (hno w)
        rw [e2, he.uri, this]
        rfl
  · constructor
    · intro k o u s hk
      obtain ⟨x, hx, e1, -⟩ := hback _ _ hk
      change o = x.offset at e1
      rw [e1]
      exact hI.offset hx
    · intro k o u s hk
      obtain ⟨x, hx, e1, e2, e3, e4, e5, -⟩ := hback _ _ hk
      refine e5 _ ?_
      by_cases hK : k ∈ D
      · obtain ⟨y, hy, he⟩ := hI.entry k hK
        rw [hx] at hy
        cases hy
        constructor
        · intro k' o' u' s' hk'
          obtain ⟨-, w, -, h3⟩ := (he.mem hm _ _).mp hk'
          injection h3 with h3
          omega
        · intro k' o' u' s' hk'
          obtain ⟨-, w, -, h3⟩ := (he.mem hm _ _).mp hk'
          injection h3 with _ _ h3
          rw [h3]
          exact offsets_nil _
      · obtain ⟨-, w, -, rfl⟩ := hflat k x hx hK
        exact offsets_nil _
  · intro K o u s hk
    obtain ⟨x, hx, -, -, e3, e4, -, e6⟩ := hback _ _ hk
    dsimp only [PSub.subset] at e3 e4 e6
    by_cases hK : K ∈ D
    · obtain ⟨y, hy, he⟩ := hI.entry K hK
      rw [hx] at hy
      cases hy
      refine ⟨e3, ⟨fun _ => (hD K).mpr hK, fun hg => ?_⟩, e6 fun k p hkp => ((he.mem hm _ _).mp hkp).1⟩
      obtain ⟨a, c, ha, hc, hac, pa, pc⟩ := (two_le_countP hm K).mp hg.count
      have key : ∀ a, a ∈ b0.map Prod.fst → K <+: a → a ≠ K → s ≠ [] := by
        rintro a ha ⟨d, rfl⟩ hne rfl
        obtain ⟨⟨a', w⟩, hmem, e⟩ := List.mem_map.mp ha
        dsimp only at e
        subst e
        have hd : d ≠ [] := by rintro rfl; exact hne (by simp)
        exact full_nil _ _ ((e4 d w).mpr ((he.full hm d w).mpr ⟨hd, hmem⟩))
      by_cases h : a = K
      · exact key c hc pc fun e => hac (h.trans e.symm)
      · exact key a ha pa h
    · obtain ⟨-, w, -, rfl⟩ := hflat K x hx hK
      have hs : s = [] := by
        cases s with
        | nil => rfl
        | cons e s =>
          obtain ⟨k, o, u, t⟩ := e
          exact absurd ((e4 k u).mp (.here (by simp : (k, PSub.mk o u t) ∈ _))) (full_nil _ _)
      refine ⟨e3, ?_, by simp [hs]⟩
      rw [hD]
      simp [hs, hK]

end Gosstrak
