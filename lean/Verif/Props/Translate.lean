import Verif.Proofs.Translate

/-!
C33-C38: `tdt.Core.Translate` for every PC and ID.
-/
namespace Gosstrak

theorem translate_even (p0 p1 : Byte) (id : List Byte) (hp : p0.toNat % 2 = 0) :
    translate [p0, p1] id = buildEPC id := by
  have h : 1#8 &&& p0 = 0#8 := by
    apply BitVec.eq_of_toNat_eq
    rw [BitVec.and_comm]
    exact (and_mask p0 1 (by omega)).trans (by simpa using hp)
  unfold translate
  dsimp only
  rw [if_pos h]

theorem translate_odd (p0 p1 : Byte) (id : List Byte) (hp : p0.toNat % 2 = 1) :
    translate [p0, p1] id = some (buildUII id p1) := by
  have h : 1#8 &&& p0 = 1#8 := by
    apply BitVec.eq_of_toNat_eq
    rw [BitVec.and_comm]
    exact (and_mask p0 1 (by omega)).trans (by simpa using hp)
  unfold translate
  dsimp only
  rw [h, if_neg (by decide), if_pos rfl]

theorem partition_cases (id : List Byte) : partitionOf id < 7 ∨ partitionOf id = 7 := by
  have := field_lt id 11 3
  unfold partitionOf
  omega

theorem buildSGTIN_spec (id : List Byte) (hl : id.length = 12) :
    (partitionOf id < 7 → companyOf id < 10 ^ (12 - partitionOf id) →
      secondOf 44 id < 10 ^ (partitionOf id + 1) →
      ∃ c r s, Padded (12 - partitionOf id) (companyOf id) c ∧
        Padded (partitionOf id + 1) (secondOf 44 id) r ∧ Numeral (serialOf id) s ∧
        buildSGTIN id = some ("urn:epc:id:sgtin:".toList ++ c ++ ".".toList ++ r ++ ".".toList ++ s,
          false)) ∧
    (partitionOf id < 7 → (10 ^ (12 - partitionOf id) ≤ companyOf id ∨
      10 ^ (partitionOf id + 1) ≤ secondOf 44 id) → buildSGTIN id = none) ∧
    (partitionOf id = 7 → ∃ s, Numeral (serialOf id) s ∧
      buildSGTIN id = some ("urn:epc:id:sgtin:".toList ++ s, false)) := by
  have hrow := partitionRow_spec sgtinTable 44 (· + 1) (by decide) id hl
  have hser := serialBytes_field id hl
  have href := refBytes_field id hl
  have hcp := cpText_spec id hl
  unfold buildSGTIN companyOf secondOf serialOf partitionOf
  rw [if_neg (by simpa using hl)]
  dsimp only
  rw [hrow, hser]
  generalize field id 11 3 = p at *
  have hn := decStr_numeral (field id 58 38)
  refine ⟨fun hp h1 h2 => ?_, fun hp h => ?_, fun hp => ?_⟩
  · rw [if_pos hp]
    dsimp only
    obtain ⟨c, hc, he⟩ := (hcp p hp ⟨12 - p, p, companyBits p, 44 - companyBits p, p + 1⟩ rfl rfl).1 h1
    rw [href p hp, he]
    obtain ⟨r, hr, he2⟩ := (padZero_spec (p + 1) _ (by omega)).1 h2
    rw [he2]
    exact ⟨c, r, _, hc, hr, hn, by simp [List.append_assoc]⟩
  · rw [if_pos hp]
    dsimp only
    have hcp := hcp p hp ⟨12 - p, p, companyBits p, 44 - companyBits p, p + 1⟩ rfl rfl
    rw [href p hp]
    by_cases h1 : field id 14 (companyBits p) < 10 ^ (12 - p)
    · obtain ⟨c, hc, he⟩ := hcp.1 h1
      rw [he, (padZero_spec (p + 1) _ (by omega)).2 (by omega)]; rfl
    · rw [hcp.2 (by omega)]; rfl
  · rw [if_neg (by omega)]
    exact ⟨_, hn, by simp⟩

theorem buildSSCC_spec (id : List Byte) (hl : id.length = 12) :
    (partitionOf id < 7 → companyOf id < 10 ^ (12 - partitionOf id) →
      secondOf 58 id < 10 ^ (partitionOf id + 5) →
      ∃ c r, Padded (12 - partitionOf id) (companyOf id) c ∧
        Padded (partitionOf id + 5) (secondOf 58 id) r ∧
        buildSSCC id = some ("urn:epc:id:sscc:".toList ++ c ++ ".".toList ++ r, false)) ∧
    (partitionOf id < 7 → (10 ^ (12 - partitionOf id) ≤ companyOf id ∨
      10 ^ (partitionOf id + 5) ≤ secondOf 58 id) → buildSSCC id = none) ∧
    (partitionOf id = 7 → buildSSCC id = some ("urn:epc:id:sscc:".toList, false)) := by
  have hrow := partitionRow_spec ssccTable 58 (· + 5) (by decide) id hl
  have href := extBytes_field id hl
  have hcp := cpText_spec id hl
  unfold buildSSCC companyOf secondOf partitionOf
  rw [if_neg (by simpa using hl)]
  dsimp only
  rw [hrow]
  generalize field id 11 3 = p at *
  refine ⟨fun hp h1 h2 => ?_, fun hp h => ?_, fun hp => ?_⟩
  · rw [if_pos hp]
    dsimp only
    obtain ⟨c, hc, he⟩ := (hcp p hp ⟨12 - p, p, companyBits p, 58 - companyBits p, p + 5⟩ rfl rfl).1 h1
    rw [href p hp, he]
    obtain ⟨r, hr, he2⟩ := (padZero_spec (p + 5) _ (by omega)).1 h2
    rw [he2]
    exact ⟨c, r, hc, hr, by simp [List.append_assoc]⟩
  · rw [if_pos hp]
    dsimp only
    have hcp := hcp p hp ⟨12 - p, p, companyBits p, 58 - companyBits p, p + 5⟩ rfl rfl
    rw [href p hp]
    by_cases h1 : field id 14 (companyBits p) < 10 ^ (12 - p)
    · obtain ⟨c, hc, he⟩ := hcp.1 h1
      rw [he, (padZero_spec (p + 5) _ (by omega)).2 (by omega)]; rfl
    · rw [hcp.2 (by omega)]; rfl
  · rw [if_neg (by omega)]; rfl

theorem buildGRAI_spec (id : List Byte) (hl : id.length = 12) :
    (0 < partitionOf id → partitionOf id < 7 → companyOf id < 10 ^ (12 - partitionOf id) →
      secondOf 44 id < 10 ^ partitionOf id →
      ∃ c r s, Padded (12 - partitionOf id) (companyOf id) c ∧
        Padded (partitionOf id) (secondOf 44 id) r ∧ Numeral (serialOf id) s ∧
        buildGRAI id = some ("urn:epc:id:grai:".toList ++ c ++ ".".toList ++ r ++ ".".toList ++ s,
          false)) ∧
    (partitionOf id = 0 → companyOf id < 10 ^ 12 →
      ∃ c s, Padded 12 (companyOf id) c ∧ Numeral (serialOf id) s ∧
        buildGRAI id = some ("urn:epc:id:grai:".toList ++ c ++ ".".toList ++ s, false)) ∧
    (partitionOf id < 7 → (10 ^ (12 - partitionOf id) ≤ companyOf id ∨
      0 < partitionOf id ∧ 10 ^ partitionOf id ≤ secondOf 44 id) → buildGRAI id = none) ∧
    (partitionOf id = 7 → ∃ s, Numeral (serialOf id) s ∧
      buildGRAI id = some ("urn:epc:id:grai:".toList ++ s, false)) := by
  have hrow := partitionRow_spec graiTable 44 (fun p => p) (by decide) id hl
  have hser := serialBytes_field id hl
  have href := refBytes_field id hl
  have hcp := cpText_spec id hl
  unfold buildGRAI companyOf secondOf serialOf partitionOf
  rw [if_neg (by simpa using hl)]
  dsimp only
  rw [hrow, hser]
  generalize field id 11 3 = p at *
  have hn := decStr_numeral (field id 58 38)
  have h40 : ∀ p, 0 < p → p < 7 → companyBits p ≠ 40 := by
    intro p h1 h2 h3
    have : ∀ p < 7, 0 < p → companyBits p ≠ 40 := by decide
    exact this p h2 h1 h3
  refine ⟨fun h0 hp h1 h2 => ?_, fun hp h1 => ?_, fun hp h => ?_, fun hp => ?_⟩
  · rw [if_pos hp]
    dsimp only
    obtain ⟨c, hc, he⟩ := (hcp p hp ⟨12 - p, p, companyBits p, 44 - companyBits p, p⟩ rfl rfl).1 h1
    rw [href p hp, he]
    obtain ⟨r, hr, he2⟩ := (padZero_spec p _ h0).1 h2
    rw [he2]
    exact ⟨c, r, _, hc, hr, hn, by simp [List.append_assoc, h40 p h0 hp]⟩
  · subst hp
    rw [if_pos (by omega)]
    dsimp only
    obtain ⟨c, hc, he⟩ := (hcp 0 (by omega) ⟨12 - 0, 0, companyBits 0, 44 - companyBits 0, 0⟩ rfl rfl).1 h1
    rw [he]
    exact ⟨c, _, hc, hn, by simp [List.append_assoc, companyBits]⟩
  · rw [if_pos hp]
    dsimp only
    have hcp := hcp p hp ⟨12 - p, p, companyBits p, 44 - companyBits p, p⟩ rfl rfl
    rw [href p hp]
    by_cases h1 : field id 14 (companyBits p) < 10 ^ (12 - p)
    · obtain ⟨c, hc, he⟩ := hcp.1 h1
      have h0 : 0 < p := by omega
      rw [he, (padZero_spec p _ h0).2 (by omega)]
      simp [h40 p h0 hp]
    · rw [hcp.2 (by omega)]; rfl
  · rw [if_neg (by omega)]
    exact ⟨_, hn, by simp⟩

theorem buildGIAI_spec (id : List Byte) (hl : id.length = 12) :
    (partitionOf id < 7 → companyOf id < 10 ^ (12 - partitionOf id) →
      ∃ c r, Padded (12 - partitionOf id) (companyOf id) c ∧ Numeral (secondOf 82 id) r ∧
        buildGIAI id = some ("urn:epc:id:giai:".toList ++ c ++ ".".toList ++ r, false)) ∧
    (partitionOf id < 7 → 10 ^ (12 - partitionOf id) ≤ companyOf id → buildGIAI id = none) ∧
    (partitionOf id = 7 → buildGIAI id = some ("urn:epc:id:giai:".toList, false)) := by
  have hrow := partitionRow_spec giaiTable 82 (· + 13) (by decide) id hl
  have href := iarBytes_field id hl
  have hcp := cpText_spec id hl
  unfold buildGIAI companyOf secondOf partitionOf
  rw [if_neg (by simpa using hl)]
  dsimp only
  rw [hrow]
  generalize field id 11 3 = p at *
  refine ⟨fun hp h1 => ?_, fun hp h => ?_, fun hp => ?_⟩
  · rw [if_pos hp]
    dsimp only
    obtain ⟨c, hc, he⟩ := (hcp p hp ⟨12 - p, p, companyBits p, 82 - companyBits p, p + 13⟩ rfl rfl).1 h1
    rw [href p hp, he]
    exact ⟨c, _, hc, decStr_numeral _, by simp [List.append_assoc]⟩
  · rw [if_pos hp]
    dsimp only
    rw [((hcp p hp ⟨12 - p, p, companyBits p, 82 - companyBits p, p + 13⟩ rfl rfl).2 h)]; rfl
  · rw [if_neg (by omega)]; rfl

theorem buildEPC_cons (h : Byte) (l : List Byte) :
    buildEPC (h :: l) = if h = 48#8 then buildSGTIN (h :: l) else if h = 49#8 then buildSSCC (h :: l)
      else if h = 51#8 then buildGRAI (h :: l) else if h = 52#8 then buildGIAI (h :: l)
      else some ([], false) := rfl

theorem head_cons (id : List Byte) (h : Byte) (hh : id.head? = some h) : ∃ l, id = h :: l := by
  match id, hh with
  | _ :: l, rfl => exact ⟨l, rfl⟩

/-! ### C33 -/

/-- The URN of every SGTIN-96 tag whose fields fit their digit counts. -/
theorem C33_urn (p0 p1 : Byte) (id : List Byte) (hp : p0.toNat % 2 = 0) (hl : id.length = 12)
    (hh : id.head? = some 48#8) (h7 : partitionOf id < 7)
    (hc : companyOf id < 10 ^ (12 - partitionOf id)) (hr : secondOf 44 id < 10 ^ (partitionOf id + 1)) :
    ∃ c r s, Padded (12 - partitionOf id) (companyOf id) c ∧
      Padded (partitionOf id + 1) (secondOf 44 id) r ∧ Numeral (serialOf id) s ∧
      translate [p0, p1] id = some ("urn:epc:id:sgtin:".toList ++ c ++ ".".toList ++ r ++ ".".toList ++ s,
        false) := by
  obtain ⟨l, rfl⟩ := head_cons id _ hh
  rw [translate_even _ _ _ hp, buildEPC_cons, if_pos rfl]
  exact (buildSGTIN_spec _ hl).1 h7 hc hr

example : (fun id => id.length = 12 ∧ id.head? = some 48#8 ∧ partitionOf id = 5 ∧
    companyOf id = 614141 ∧ secondOf 44 id = 812345 ∧ serialOf id = 6789 ∧
    translate [48#8, 0#8] id = some ("urn:epc:id:sgtin:0614141.812345.6789".toList, false))
    [48#8, 116#8, 37#8, 123#8, 247#8, 25#8, 78#8, 64#8, 0#8, 0#8, 26#8, 133#8] := by decide +kernel

/-- The numerals in the URN are determined by the fields. -/
theorem C33_unique (d n : Nat) (s t : Str) :
    (Padded d n s → Padded d n t → s = t) ∧ (Numeral n s → Numeral n t → s = t) :=
  ⟨padded_unique d n s t, numeral_unique n s t⟩

example : Padded 5 42 "00042".toList ∧ Numeral 42 "42".toList ∧ ¬ Numeral 42 "042".toList := by decide

/-- Translation crashes on exactly the SGTIN-96 tags with a field exceeding its digit count. -/
theorem C33_crash_iff (p0 p1 : Byte) (id : List Byte) (hp : p0.toNat % 2 = 0) (hl : id.length = 12)
    (hh : id.head? = some 48#8) :
    translate [p0, p1] id = none ↔ partitionOf id < 7 ∧
      (10 ^ (12 - partitionOf id) ≤ companyOf id ∨ 10 ^ (partitionOf id + 1) ≤ secondOf 44 id) := by
  obtain ⟨l, rfl⟩ := head_cons id _ hh
  rw [translate_even _ _ _ hp, buildEPC_cons, if_pos rfl]
  obtain ⟨s1, s2, s3⟩ := buildSGTIN_spec _ hl
  constructor
  · intro hn
    rcases partition_cases (48#8 :: l) with h7 | h7
    · refine ⟨h7, ?_⟩
      apply Classical.byContradiction
      intro hno
      obtain ⟨_, _, _, _, _, _, he⟩ := s1 h7 (by omega) (by omega)
      rw [hn] at he; cases he
    · obtain ⟨_, _, he⟩ := s3 h7
      rw [hn] at he; cases he
  · intro ⟨h7, h⟩
    exact s2 h7 h

example : translate [48#8, 0#8]
    [48#8, 3#8, 255#8, 255#8, 255#8, 255#8, 255#8, 64#8, 0#8, 0#8, 0#8, 1#8] = none := by decide +kernel

/-- Partition 7: the URN has no company prefix and no item reference. -/
theorem C33_partition_seven (p0 p1 : Byte) (id : List Byte) (hp : p0.toNat % 2 = 0)
    (hl : id.length = 12) (hh : id.head? = some 48#8) (h7 : partitionOf id = 7) :
    ∃ s, Numeral (serialOf id) s ∧
      translate [p0, p1] id = some ("urn:epc:id:sgtin:".toList ++ s, false) := by
  obtain ⟨l, rfl⟩ := head_cons id _ hh
  rw [translate_even _ _ _ hp, buildEPC_cons, if_pos rfl]
  exact (buildSGTIN_spec _ hl).2.2 h7

example : translate [48#8, 0#8] [48#8, 124#8, 37#8, 123#8, 247#8, 25#8, 78#8, 64#8, 0#8, 0#8, 26#8, 133#8]
    = some ("urn:epc:id:sgtin:6789".toList, false) := by decide +kernel

/-! ### C34 -/

/-- The URN of every SSCC-96 tag whose fields fit their digit counts. -/
theorem C34_urn (p0 p1 : Byte) (id : List Byte) (hp : p0.toNat % 2 = 0) (hl : id.length = 12)
    (hh : id.head? = some 49#8) (h7 : partitionOf id < 7)
    (hc : companyOf id < 10 ^ (12 - partitionOf id)) (hr : secondOf 58 id < 10 ^ (partitionOf id + 5)) :
    ∃ c r, Padded (12 - partitionOf id) (companyOf id) c ∧
      Padded (partitionOf id + 5) (secondOf 58 id) r ∧
      translate [p0, p1] id = some ("urn:epc:id:sscc:".toList ++ c ++ ".".toList ++ r, false) := by
  obtain ⟨l, rfl⟩ := head_cons id _ hh
  rw [translate_even _ _ _ hp, buildEPC_cons, if_neg (by decide), if_pos rfl]
  exact (buildSSCC_spec _ hl).1 h7 hc hr

example : (fun id => id.length = 12 ∧ id.head? = some 49#8 ∧ partitionOf id = 0 ∧
    companyOf id = 123456789012 ∧ secondOf 58 id = 1 ∧
    translate [48#8, 0#8] id = some ("urn:epc:id:sscc:123456789012.00001".toList, false))
    [49#8, 96#8, 114#8, 250#8, 100#8, 104#8, 80#8, 0#8, 1#8, 0#8, 0#8, 0#8] := by decide +kernel

theorem C34_crash_iff (p0 p1 : Byte) (id : List Byte) (hp : p0.toNat % 2 = 0) (hl : id.length = 12)
    (hh : id.head? = some 49#8) :
    translate [p0, p1] id = none ↔ partitionOf id < 7 ∧
      (10 ^ (12 - partitionOf id) ≤ companyOf id ∨ 10 ^ (partitionOf id + 5) ≤ secondOf 58 id) := by
  obtain ⟨l, rfl⟩ := head_cons id _ hh
  rw [translate_even _ _ _ hp, buildEPC_cons, if_neg (by decide), if_pos rfl]
  obtain ⟨s1, s2, s3⟩ := buildSSCC_spec _ hl
  constructor
  · intro hn
    rcases partition_cases (49#8 :: l) with h7 | h7
    · refine ⟨h7, ?_⟩
      apply Classical.byContradiction
      intro hno
      obtain ⟨_, _, _, _, he⟩ := s1 h7 (by omega) (by omega)
      rw [hn] at he; cases he
    · have he := s3 h7
      rw [hn] at he; cases he
  · intro ⟨h7, h⟩
    exact s2 h7 h

example : translate [48#8, 0#8]
    [49#8, 96#8, 114#8, 250#8, 100#8, 104#8, 83#8, 255#8, 255#8, 0#8, 0#8, 1#8] = none := by decide +kernel

theorem C34_partition_seven (p0 p1 : Byte) (id : List Byte) (hp : p0.toNat % 2 = 0)
    (hl : id.length = 12) (hh : id.head? = some 49#8) (h7 : partitionOf id = 7) :
    translate [p0, p1] id = some ("urn:epc:id:sscc:".toList, false) := by
  obtain ⟨l, rfl⟩ := head_cons id _ hh
  rw [translate_even _ _ _ hp, buildEPC_cons, if_neg (by decide), if_pos rfl]
  exact (buildSSCC_spec _ hl).2.2 h7

example : partitionOf [49#8, 124#8, 114#8, 250#8, 100#8, 104#8, 80#8, 0#8, 1#8, 0#8, 0#8, 0#8] = 7 := by
  decide +kernel

/-! ### C35 -/

/-- The URN of every GRAI-96 tag of partition 1 to 6 whose fields fit their digit counts. -/
theorem C35_urn (p0 p1 : Byte) (id : List Byte) (hp : p0.toNat % 2 = 0) (hl : id.length = 12)
    (hh : id.head? = some 51#8) (h0 : 0 < partitionOf id) (h7 : partitionOf id < 7)
    (hc : companyOf id < 10 ^ (12 - partitionOf id)) (hr : secondOf 44 id < 10 ^ partitionOf id) :
    ∃ c r s, Padded (12 - partitionOf id) (companyOf id) c ∧
      Padded (partitionOf id) (secondOf 44 id) r ∧ Numeral (serialOf id) s ∧
      translate [p0, p1] id = some ("urn:epc:id:grai:".toList ++ c ++ ".".toList ++ r ++ ".".toList ++ s,
        false) := by
  obtain ⟨l, rfl⟩ := head_cons id _ hh
  rw [translate_even _ _ _ hp, buildEPC_cons, if_neg (by decide), if_neg (by decide), if_pos rfl]
  exact (buildGRAI_spec _ hl).1 h0 h7 hc hr

example : (fun id => id.length = 12 ∧ id.head? = some 51#8 ∧ partitionOf id = 1 ∧
    companyOf id = 12345678901 ∧ secondOf 44 id = 1 ∧ serialOf id = 1 ∧
    translate [48#8, 0#8] id = some ("urn:epc:id:grai:12345678901.1.1".toList, false))
    [51#8, 100#8, 91#8, 251#8, 131#8, 134#8, 160#8, 64#8, 0#8, 0#8, 0#8, 1#8] := by decide +kernel

/-- Partition 0 leaves out the asset type and its dot, whatever its four bits are: two tags that
    differ there have the same identity. -/
theorem C35_partition_zero (p0 p1 : Byte) (id : List Byte) (hp : p0.toNat % 2 = 0)
    (hl : id.length = 12) (hh : id.head? = some 51#8) (h0 : partitionOf id = 0)
    (hc : companyOf id < 10 ^ 12) :
    ∃ c s, Padded 12 (companyOf id) c ∧ Numeral (serialOf id) s ∧
      translate [p0, p1] id = some ("urn:epc:id:grai:".toList ++ c ++ ".".toList ++ s, false) := by
  obtain ⟨l, rfl⟩ := head_cons id _ hh
  rw [translate_even _ _ _ hp, buildEPC_cons, if_neg (by decide), if_neg (by decide), if_pos rfl]
  exact (buildGRAI_spec _ hl).2.1 h0 hc

example : (fun f => secondOf 44 (f 64#8) = 1 ∧ secondOf 44 (f 128#8) = 2 ∧
    translate [48#8, 0#8] (f 64#8) = translate [48#8, 0#8] (f 128#8))
    (fun x => [51#8, 96#8, 114#8, 250#8, 100#8, 104#8, 80#8, x, 0#8, 0#8, 0#8, 1#8]) := by decide +kernel

theorem C35_crash_iff (p0 p1 : Byte) (id : List Byte) (hp : p0.toNat % 2 = 0) (hl : id.length = 12)
    (hh : id.head? = some 51#8) :
    translate [p0, p1] id = none ↔ partitionOf id < 7 ∧
      (10 ^ (12 - partitionOf id) ≤ companyOf id ∨
        0 < partitionOf id ∧ 10 ^ partitionOf id ≤ secondOf 44 id) := by
  obtain ⟨l, rfl⟩ := head_cons id _ hh
  rw [translate_even _ _ _ hp, buildEPC_cons, if_neg (by decide), if_neg (by decide), if_pos rfl]
  obtain ⟨s1, s2, s3, s4⟩ := buildGRAI_spec _ hl
  constructor
  · intro hn
    rcases partition_cases (51#8 :: l) with h7 | h7
    · refine ⟨h7, ?_⟩
      apply Classical.byContradiction
      intro hno
      by_cases h0 : partitionOf (51#8 :: l) = 0
      · obtain ⟨_, _, _, _, he⟩ := s2 h0 (by rw [h0] at hno; omega)
        rw [hn] at he; cases he
      · obtain ⟨_, _, _, _, _, _, he⟩ := s1 (by omega) h7 (by omega) (by omega)
        rw [hn] at he; cases he
    · obtain ⟨_, _, he⟩ := s4 h7
      rw [hn] at he; cases he
  · intro ⟨h7, h⟩
    exact s3 h7 h

example : translate [48#8, 0#8]
    [51#8, 100#8, 91#8, 251#8, 131#8, 134#8, 191#8, 64#8, 0#8, 0#8, 0#8, 1#8] = none := by decide +kernel

theorem C35_partition_seven (p0 p1 : Byte) (id : List Byte) (hp : p0.toNat % 2 = 0)
    (hl : id.length = 12) (hh : id.head? = some 51#8) (h7 : partitionOf id = 7) :
    ∃ s, Numeral (serialOf id) s ∧
      translate [p0, p1] id = some ("urn:epc:id:grai:".toList ++ s, false) := by
  obtain ⟨l, rfl⟩ := head_cons id _ hh
  rw [translate_even _ _ _ hp, buildEPC_cons, if_neg (by decide), if_neg (by decide), if_pos rfl]
  exact (buildGRAI_spec _ hl).2.2.2 h7

example : partitionOf [51#8, 124#8, 91#8, 251#8, 131#8, 134#8, 160#8, 64#8, 0#8, 0#8, 0#8, 1#8] = 7 := by
  decide +kernel

/-! ### C36 -/

/-- The URN of every GIAI-96 tag whose company prefix fits its digit count. -/
theorem C36_urn (p0 p1 : Byte) (id : List Byte) (hp : p0.toNat % 2 = 0) (hl : id.length = 12)
    (hh : id.head? = some 52#8) (h7 : partitionOf id < 7)
    (hc : companyOf id < 10 ^ (12 - partitionOf id)) :
    ∃ c r, Padded (12 - partitionOf id) (companyOf id) c ∧ Numeral (secondOf 82 id) r ∧
      translate [p0, p1] id = some ("urn:epc:id:giai:".toList ++ c ++ ".".toList ++ r, false) := by
  obtain ⟨l, rfl⟩ := head_cons id _ hh
  rw [translate_even _ _ _ hp, buildEPC_cons, if_neg (by decide), if_neg (by decide),
    if_neg (by decide), if_pos rfl]
  exact (buildGIAI_spec _ hl).1 h7 hc

example : (fun id => id.length = 12 ∧ id.head? = some 52#8 ∧ partitionOf id = 0 ∧
    companyOf id = 123456789012 ∧ secondOf 82 id = 12345 ∧
    translate [48#8, 0#8] id = some ("urn:epc:id:giai:123456789012.12345".toList, false))
    [52#8, 96#8, 114#8, 250#8, 100#8, 104#8, 80#8, 0#8, 0#8, 0#8, 48#8, 57#8] := by decide +kernel

theorem C36_crash_iff (p0 p1 : Byte) (id : List Byte) (hp : p0.toNat % 2 = 0) (hl : id.length = 12)
    (hh : id.head? = some 52#8) :
    translate [p0, p1] id = none ↔
      partitionOf id < 7 ∧ 10 ^ (12 - partitionOf id) ≤ companyOf id := by
  obtain ⟨l, rfl⟩ := head_cons id _ hh
  rw [translate_even _ _ _ hp, buildEPC_cons, if_neg (by decide), if_neg (by decide),
    if_neg (by decide), if_pos rfl]
  obtain ⟨s1, s2, s3⟩ := buildGIAI_spec _ hl
  constructor
  · intro hn
    rcases partition_cases (52#8 :: l) with h7 | h7
    · refine ⟨h7, ?_⟩
      apply Classical.byContradiction
      intro hno
      obtain ⟨_, _, _, _, he⟩ := s1 h7 (by omega)
      rw [hn] at he; cases he
    · have he := s3 h7
      rw [hn] at he; cases he
  · intro ⟨h7, h⟩
    exact s2 h7 h

example : translate [48#8, 0#8]
    [52#8, 99#8, 255#8, 255#8, 255#8, 255#8, 255#8, 0#8, 0#8, 0#8, 48#8, 57#8] = none := by decide +kernel

theorem C36_partition_seven (p0 p1 : Byte) (id : List Byte) (hp : p0.toNat % 2 = 0)
    (hl : id.length = 12) (hh : id.head? = some 52#8) (h7 : partitionOf id = 7) :
    translate [p0, p1] id = some ("urn:epc:id:giai:".toList, false) := by
  obtain ⟨l, rfl⟩ := head_cons id _ hh
  rw [translate_even _ _ _ hp, buildEPC_cons, if_neg (by decide), if_neg (by decide),
    if_neg (by decide), if_pos rfl]
  exact (buildGIAI_spec _ hl).2.2 h7

example : partitionOf [52#8, 124#8, 114#8, 250#8, 100#8, 104#8, 80#8, 0#8, 0#8, 0#8, 48#8, 57#8] = 7 := by
  decide +kernel

/-! ### C37 -/

/-- PC bits of another length than two bytes are rejected. -/
theorem C37_pc_length (pc id : List Byte) (h : pc.length ≠ 2) : translate pc id = some ([], true) := by
  match pc, h with
  | [], _ => rfl
  | [_], _ => rfl
  | [_, _], h => exact absurd rfl h
  | _ :: _ :: _ :: _, _ => rfl

/-- An EPC (low bit of the first PC byte clear) with an unknown header is not an error: its identity
    is the empty string. -/
theorem C37_unknown_header (p0 p1 h : Byte) (l : List Byte) (hp : p0.toNat % 2 = 0)
    (hh : h ∉ [48#8, 49#8, 51#8, 52#8]) : translate [p0, p1] (h :: l) = some ([], false) := by
  rw [translate_even _ _ _ hp, buildEPC_cons]
  simp only [List.mem_cons, List.not_mem_nil, or_false, not_or] at hh
  rw [if_neg hh.1, if_neg hh.2.1, if_neg hh.2.2.1, if_neg hh.2.2.2]

/-- A known header on an ID of another length than twelve bytes is an error. -/
theorem C37_length (p0 p1 h : Byte) (l : List Byte) (hp : p0.toNat % 2 = 0)
    (hh : h ∈ [48#8, 49#8, 51#8, 52#8]) (hl : (h :: l).length ≠ 12) :
    translate [p0, p1] (h :: l) = some ([], true) := by
  rw [translate_even _ _ _ hp]
  simp only [List.mem_cons, List.not_mem_nil, or_false] at hh
  rcases hh with rfl | rfl | rfl | rfl
  · rw [buildEPC_cons, if_pos rfl]; exact if_pos hl
  · rw [buildEPC_cons, if_neg (by decide), if_pos rfl]; exact if_pos hl
  · rw [buildEPC_cons, if_neg (by decide), if_neg (by decide), if_pos rfl]; exact if_pos hl
  · rw [buildEPC_cons, if_neg (by decide), if_neg (by decide), if_neg (by decide), if_pos rfl]
    exact if_pos hl

theorem parse6Bit_text (id : List Byte) : parse6Bit id = sixBitText id := by
  unfold parse6Bit sixBitText
  rw [Nat.mul_comm id.length 8]
  congr 1
  funext i
  have h := sixBits_field id i
  have hlt := field_lt id (6 * i) 6
  generalize field id (6 * i) 6 = v at *
  generalize sixBits (byteAt id) (6 * i) = c at *
  have hx : c ^^^ 32#8 = 0#8 ↔ c.toNat = 32 := by
    constructor
    · intro e
      have : c = 32#8 := by
        have h1 : c ^^^ 32#8 ^^^ 32#8 = 0#8 ^^^ 32#8 := by rw [e]
        rw [BitVec.xor_assoc, BitVec.xor_self, BitVec.xor_zero, BitVec.zero_xor] at h1
        exact h1
      rw [this]; rfl
    · intro e
      have : c = 32#8 := BitVec.eq_of_toNat_eq e
      rw [this]; rfl
  unfold sixBitChar
  dsimp only
  by_cases h32 : v = 32
  · rw [if_pos h32, if_neg]
    intro hn
    apply hn
    rw [hx, h, if_neg (by omega), h32]
  · rw [if_neg h32, if_pos, h]
    intro e
    rw [hx, h] at e
    split at e <;> omega

/-- The low bit of the first PC byte selects the ISO branch; there the second byte, from 0xA1 to
    0xAA, names the standard and the ID is read in groups of six bits. -/
theorem C37_iso (p0 p1 : Byte) (id : List Byte) (name : String) (hp : p0.toNat % 2 = 1)
    (h1 : 161 ≤ p1.toNat) (h2 : afiNames[p1.toNat - 161]? = some name) :
    translate [p0, p1] id = some ("urn:epc:id:iso".toList ++ name.toList ++ ":".toList ++ sixBitText id,
      false) := by
  rw [translate_odd _ _ _ hp]
  unfold buildUII
  rw [parse6Bit_text]
  generalize sixBitText id = t
  have key : ∀ q : Byte, 161 ≤ q.toNat →
      afiURN q = (afiNames[q.toNat - 161]?).map fun n => n.toList ++ ":".toList := by decide +kernel
  rw [key p1 h1, h2]
  dsimp only [Option.map_some]
  simp [List.append_assoc]

/-- All other values of the second byte are an error. -/
theorem C37_iso_error (p0 p1 : Byte) (id : List Byte) (hp : p0.toNat % 2 = 1)
    (h : p1.toNat < 161 ∨ 170 < p1.toNat) : translate [p0, p1] id = some ([], true) := by
  rw [translate_odd _ _ _ hp]
  unfold buildUII
  have key : ∀ q : Byte, q.toNat < 161 ∨ 170 < q.toNat → afiURN q = none := by decide +kernel
  rw [key p1 h]

example : translate [49#8, 169#8] [220#8, 32#8, 211#8, 69#8, 92#8, 240#8, 215#8, 76#8, 248#8, 206#8]
    = some ("urn:epc:id:iso17363:7BCSQU3054383".toList, false) := by decide +kernel

/-- Neither the filter bits nor, for EPCs, the second PC byte matter. -/
theorem C37_pc_irrelevant (p0 p1 q0 q1 : Byte) (id : List Byte) (hp : p0.toNat % 2 = 0)
    (hq : q0.toNat % 2 = 0) : translate [p0, p1] id = translate [q0, q1] id := by
  rw [translate_even _ _ _ hp, translate_even _ _ _ hq]

example : (48#8 : Byte).toNat % 2 = 0 ∧ (50#8 : Byte).toNat % 2 = 0 := by decide

/-! ### C38 -/

/-- Translation crashes on exactly the EPCs without any byte and those of twelve bytes with a known
    header and a field exceeding its digit count. -/
theorem C38_crash_iff (pc id : List Byte) :
    translate pc id = none ↔ (∃ p0 p1, pc = [p0, p1] ∧ p0.toNat % 2 = 0) ∧
      (id = [] ∨ id.length = 12 ∧ partitionOf id < 7 ∧
        (id.head? ∈ [some 48#8, some 49#8, some 51#8, some 52#8] ∧
            10 ^ (12 - partitionOf id) ≤ companyOf id ∨
          id.head? = some 48#8 ∧ 10 ^ (partitionOf id + 1) ≤ secondOf 44 id ∨
          id.head? = some 49#8 ∧ 10 ^ (partitionOf id + 5) ≤ secondOf 58 id ∨
          id.head? = some 51#8 ∧ 0 < partitionOf id ∧ 10 ^ partitionOf id ≤ secondOf 44 id)) := by
  by_cases hpc : pc.length ≠ 2
  · rw [C37_pc_length pc id hpc]
    constructor
    · intro h; cases h
    · rintro ⟨⟨p0, p1, rfl, _⟩, _⟩
      exact absurd rfl hpc
  · match pc, hpc with
    | [], h => exact absurd (by simp) h
    | [_], h => exact absurd (by simp) h
    | _ :: _ :: _ :: _, h => exact absurd (by simp) h
    | [p0, p1], _ =>
      by_cases hp : p0.toNat % 2 = 0
      · have hpc : (∃ a b, [p0, p1] = [a, b] ∧ a.toNat % 2 = 0) := ⟨p0, p1, rfl, hp⟩
        rw [eq_true hpc, true_and]
        match id with
        | [] => rw [translate_even _ _ _ hp]; simp [buildEPC]
        | h :: l =>
          by_cases hh : h ∈ [48#8, 49#8, 51#8, 52#8]
          · by_cases hl : (h :: l).length = 12
            · have hne : h :: l ≠ [] := by simp
              simp only [List.mem_cons, List.not_mem_nil, or_false] at hh
              rcases hh with rfl | rfl | rfl | rfl
              · rw [C33_crash_iff p0 p1 _ hp hl rfl]
                simp [hl]
              · rw [C34_crash_iff p0 p1 _ hp hl rfl]
                simp [hl]
              · rw [C35_crash_iff p0 p1 _ hp hl rfl]
                simp [hl]
              · rw [C36_crash_iff p0 p1 _ hp hl rfl]
                simp [hl]
            · rw [C37_length p0 p1 h l hp hh hl]
              constructor
              · intro h; cases h
              · rintro (h | ⟨h, _⟩)
                · cases h
                · exact absurd h hl
          · rw [C37_unknown_header p0 p1 h l hp hh]
            simp only [List.mem_cons, List.not_mem_nil, or_false, not_or] at hh
            simp [hh]
      · rw [translate_odd _ _ _ (by omega)]
        constructor
        · intro h; cases h
        · rintro ⟨⟨a, b, he, ha⟩, _⟩
          cases he
          omega

/-- Both reasons occur. -/
theorem C38_not_crash_free : translate [48#8, 0#8] [] = none ∧
    translate [48#8, 0#8] [52#8, 99#8, 255#8, 255#8, 255#8, 255#8, 255#8, 0#8, 0#8, 0#8, 0#8, 0#8]
      = none := by decide +kernel

/-- No crash on ISO tags, nor on an ID that has neither 0 nor 12 bytes. -/
theorem C38_safe (pc id : List Byte)
    (h : (∃ p0 p1, pc = [p0, p1] ∧ p0.toNat % 2 = 1) ∨ id.length ≠ 0 ∧ id.length ≠ 12) :
    translate pc id ≠ none := by
  intro hn
  rw [C38_crash_iff] at hn
  obtain ⟨⟨p0, p1, rfl, hp⟩, hn⟩ := hn
  rcases h with ⟨a, b, he, ha⟩ | ⟨h0, h12⟩
  · cases he; omega
  · rcases hn with rfl | ⟨h, _⟩
    · exact h0 rfl
    · exact h12 h

example : ∃ p0 p1 : Byte, [49#8, 169#8] = [p0, p1] ∧ p0.toNat % 2 = 1 := ⟨_, _, rfl, by decide⟩

-- vectors of tdt/core_test.go
example : translate [48#8, 0#8] [48#8, 112#8, 94#8, 48#8, 167#8, 0#8, 0#8, 64#8, 0#8, 0#8, 0#8, 1#8]
    = some ("urn:epc:id:sgtin:12345678.00001.1".toList, false) := by decide +kernel
example : translate [48#8, 0#8] [49#8, 96#8, 114#8, 250#8, 100#8, 104#8, 80#8, 0#8, 1#8, 0#8, 0#8, 0#8]
    = some ("urn:epc:id:sscc:123456789012.00001".toList, false) := by decide +kernel
example : translate [48#8, 0#8] [52#8, 100#8, 91#8, 251#8, 131#8, 134#8, 160#8, 0#8, 0#8, 0#8, 48#8, 57#8]
    = some ("urn:epc:id:giai:12345678901.12345".toList, false) := by decide +kernel
example : translate [48#8, 0#8] [51#8, 96#8, 114#8, 250#8, 100#8, 104#8, 80#8, 64#8, 0#8, 0#8, 0#8, 1#8]
    = some ("urn:epc:id:grai:123456789012.1".toList, false) := by decide +kernel
example : parse6Bit [199#8, 44#8, 244#8, 130#8] = "1234".toList := by decide +kernel

end Gosstrak
