import Verif.Proofs.Scheme
import Verif.Props.Legacy
import Verif.Props.ListEngine
import Verif.Props.Splay
import Verif.Props.Patricia

/-!
C31, C39-C41: making tags and filters from field texts, for every implementation of the external
functions that is `Binutil.Ok`.
-/
namespace Gosstrak

/-- The assumptions on the external functions can be met. -/
theorem sampleBinutil_ok : sampleBinutil.Ok where
  decToBin s h1 h2 _ := binStr_numeral _
  randomBits i n m := by
    refine ⟨fun c hc => Or.inr (List.mem_replicate.mp hc).2, ?_⟩
    simp [sampleBinutil]
  sixBit c _ _ := leftPad_padded 6 _ _ (binStr_numeral _) (by omega) (by omega)

/-! ### C39 -/

/-- Making a tag of fields that fit into their bits succeeds, and the tag has twelve bytes, the header
    and the fields. -/
theorem C39_fields (x : Binutil) (hx : x.Ok) (sc : Scheme) (fv cp ref ser : Str)
    (h : sc.Encodable (sc.allFields fv cp ref ser)) :
    ∃ id, sc.make x fv cp ref ser = some ⟨id, [], []⟩ ∧ id.length = 12 ∧
      sc.Has id (sc.allFields fv cp ref ser) := make_has x hx sc fv cp ref ser h

example : Scheme.sgtin.Encodable (Scheme.sgtin.allFields "3".toList "0614141".toList "812345".toList
      "6789".toList) ∧
    Scheme.sgtin.make sampleBinutil "3".toList "0614141".toList "812345".toList "6789".toList = some
      ⟨[48#8, 116#8, 37#8, 123#8, 247#8, 25#8, 78#8, 64#8, 0#8, 0#8, 26#8, 133#8], [], []⟩ := by
  constructor
  · rw [Scheme.allFields, if_pos (show Scheme.sgtin.hasSerial from trivial)]
    unfold Scheme.Encodable Scheme.hasSerial
    decide +kernel
  · decide +kernel

/-- The translation of a tag made of well-formed fields is the identity with these fields. -/
theorem C39_round_trip (x : Binutil) (hx : x.Ok) (sc : Scheme) (fv cp ref ser : Str)
    (h : sc.WellFormed (sc.allFields fv cp ref ser)) (p0 p1 : Byte) (hp : p0.toNat % 2 = 0) :
    ∃ id, sc.make x fv cp ref ser = some ⟨id, [], []⟩ ∧ id.length = 12 ∧
      translate [p0, p1] id = some (sc.urn (sc.allFields fv cp ref ser).tail, false) := by
  obtain ⟨id, h1, h2, h3⟩ := make_has x hx sc fv cp ref ser (wellFormed_encodable sc _ h)
  refine ⟨id, h1, h2, ?_⟩
  unfold Scheme.allFields at *
  by_cases hs : sc.hasSerial
  · rw [if_pos hs] at *
    obtain ⟨a1, a2, a3, _, a5, _⟩ := h
    obtain ⟨b1, b2, b3, b4, b5, b6⟩ := h3
    have := urn_of_fields p0 p1 hp sc id h2 b1 cp ref ser a2 a3 b3 b4 b5 fun _ => by rw [b6]; exact a5
    rwa [if_pos hs] at this
  · rw [if_neg hs] at *
    obtain ⟨a1, a2, a3⟩ := h
    obtain ⟨b1, b2, b3, b4, b5⟩ := h3
    have := urn_of_fields p0 p1 hp sc id h2 b1 cp ref ser a2 a3 b3 b4 b5 fun h => absurd h hs
    rwa [if_neg hs] at this

example : Scheme.giai.WellFormed (Scheme.giai.allFields "5".toList "0614141".toList
      "32a".toList.dropLast []) ∧
    (Scheme.giai.allFields "5".toList "0614141".toList "32".toList []).tail
      = ["0614141".toList, "32".toList] ∧
    Scheme.giai.urn ["0614141".toList, "32".toList] = "urn:epc:id:giai:0614141.32".toList := by
  refine ⟨?_, rfl, by decide +kernel⟩
  rw [Scheme.allFields, if_neg (show ¬ Scheme.giai.hasSerial from fun h => h)]
  unfold Scheme.WellFormed
  decide +kernel

/-- GRAI-96 with a company prefix of twelve digits has no asset type: whatever is given for it (or
    drawn, if nothing is given) is encoded, and the identity is without it. -/
theorem C39_grai_twelve (x : Binutil) (hx : x.Ok) (fv cp ref ser : Str) (hfv : IsFilterValue fv)
    (hcp : IsCompanyPrefix cp) (h12 : cp.length = 12) (href : ref = [] ∨ Fits 4 ref)
    (hser : Numeral (decVal ser) ser) (hs : decVal ser < 2 ^ 38) (p0 p1 : Byte)
    (hp : p0.toNat % 2 = 0) :
    ∃ id, Scheme.grai.make x fv cp ref ser = some ⟨id, [], []⟩ ∧ id.length = 12 ∧
      translate [p0, p1] id = some (Scheme.grai.urn [cp, ser], false) := by
  have hp0 : partitionFor cp = 0 := by unfold partitionFor; omega
  obtain ⟨id, m1, m2, m3⟩ := make_carries x hx .grai fv cp ref ser hfv hcp
    (by rw [hp0]; exact href) fun _ => Or.inr ⟨hser.1, hser.2.1, hs⟩
  refine ⟨id, m1, m2, ?_⟩
  obtain ⟨hbp, hbc, _⟩ := pieces_padded x hx .grai cp hcp
  have hf := getFilter_padded x fv hfv
  have hsr := getSerial_padded x hx ser ⟨hser.1, hser.2.1, hs⟩
  have hhd := Scheme.grai.headerText_padded
  have hrl : (x.getRef ref (rowFor Scheme.grai.table cp.length)).length = 4 := by
    rcases href with rfl | href
    · have := (getRef_random x hx ⟨12 - partitionFor cp, partitionFor cp, companyBits (partitionFor cp),
        44 - companyBits (partitionFor cp), partitionFor cp⟩).2
      rw [rowFor_spec Scheme.grai.isTable cp hcp]
      refine this.trans ?_
      rw [hp0]; rfl
    · have := (pieces_padded x hx .grai cp hcp).2.2 ref (by rw [hp0]; exact href)
      rw [this.2.1, hp0]; rfl
  simp only [carries_append, carries_padded hhd, carries_padded hf, carries_padded hbp,
    carries_padded hbc, List.length_append, hhd.2.1, hf.2.1, hbp.2.1, hbc.2.1, hrl] at m3
  obtain ⟨q1, ⟨⟨⟨q2, q3⟩, q4⟩, q5⟩, q6⟩ := m3
  rw [field_head _ _ (by omega)] at q1
  have e1 : partitionOf id = 0 := by rw [← hp0]; exact q3
  have e2 : companyOf id = decVal cp := by
    unfold companyOf; rw [e1]; rw [hp0] at q4; exact q4
  have e3 : serialOf id = decVal ser := by
    rw [hp0] at q6
    exact (carries_padded hsr _ id).mp q6
  have hlt := decVal_lt cp hcp.1
  rw [h12] at hlt
  obtain ⟨c, s, t1, t2, t3⟩ := C35_partition_zero p0 p1 id hp m2 q1 e1 (by rw [e2]; exact hlt)
  rw [e2] at t1
  rw [e3] at t2
  rw [t3, padded_unique _ _ _ _ t1 ⟨hcp.1, h12, rfl⟩, numeral_unique _ _ _ t2 hser, urn_eq, intercalate2]
  simp only [List.append_assoc]
  rfl

example : IsCompanyPrefix "123456789012".toList ∧ Fits 4 "9".toList ∧
    Scheme.grai.urn ["123456789012".toList, "42".toList] = "urn:epc:id:grai:123456789012.42".toList ∧
    (Scheme.grai.make sampleBinutil "0".toList "123456789012".toList "9".toList "42".toList).map
      (fun m => translate [0#8, 0#8] m.id)
      = some (some ("urn:epc:id:grai:123456789012.42".toList, false)) := by decide +kernel

/-! ### C40 -/

/-- The filter of a pattern with one to four fields exists, and it matches exactly the tags with these
    fields. -/
theorem C40_selects (x : Binutil) (hx : x.Ok) (sc : Scheme) (fields : List Str)
    (h : sc.Encodable fields) :
    ∃ s, x.encoder sc.typeName fields = some s ∧ ∀ id : List Byte, id.length = 12 →
      ((newFilter s 0).matchID id = some true ↔ sc.Has id fields) ∧
      ((newFilter s 0).matchID id = some false ↔ ¬ sc.Has id fields) := by
  obtain ⟨s, h1, h2, h3, h4, h5⟩ := encoder_carries x hx sc fields h
  refine ⟨s, h1, fun id hl => ?_⟩
  rw [← h5 id (by omega)]
  exact C01_match_iff_carries s h2.filterStr 0 id ⟨by omega, by omega⟩

example : Scheme.sgtin.Encodable ["3".toList, "0614141".toList] ∧
    (sampleBinutil.encoder "sgtin-96".toList ["3".toList, "0614141".toList]).map (fun s =>
      (newFilter s 0).matchID
        [48#8, 116#8, 37#8, 123#8, 247#8, 25#8, 78#8, 64#8, 0#8, 0#8, 26#8, 133#8]) = some (some true) ∧
    (sampleBinutil.encoder "sgtin-96".toList ["2".toList, "0614141".toList]).map (fun s =>
      (newFilter s 0).matchID
        [48#8, 116#8, 37#8, 123#8, 247#8, 25#8, 78#8, 64#8, 0#8, 0#8, 26#8, 133#8]) = some (some false) := by
  refine ⟨?_, by decide +kernel, by decide +kernel⟩
  unfold Scheme.Encodable
  decide +kernel

theorem partitionFor_inj {cp cp' : Str} (h : IsCompanyPrefix cp) (h' : IsCompanyPrefix cp')
    (e : partitionFor cp = partitionFor cp') : cp.length = cp'.length := by
  have := h.2; have := h'.2
  unfold partitionFor at e; omega

/-- In terms of encoded tags: the filter of the pattern's fields matches the tag made of other fields
    iff the company prefixes have the same digits and the other fields the same values. -/
theorem C40_encoded (x : Binutil) (hx : x.Ok) (sc : Scheme) (fields : List Str)
    (h : sc.Encodable fields) (fv cp ref ser : Str) (ht : sc.Encodable (sc.allFields fv cp ref ser)) :
    ∃ s id, x.encoder sc.typeName fields = some s ∧ sc.make x fv cp ref ser = some ⟨id, [], []⟩ ∧
      ((newFilter s 0).matchID id = some true ↔ match fields with
        | [fv'] => decVal fv' = decVal fv
        | [fv', cp'] => decVal fv' = decVal fv ∧ cp' = cp
        | [fv', cp', ref'] => decVal fv' = decVal fv ∧ cp' = cp ∧ decVal ref' = decVal ref
        | [fv', cp', ref', ser'] => decVal fv' = decVal fv ∧ cp' = cp ∧ decVal ref' = decVal ref ∧
            decVal ser' = decVal ser
        | _ => False) := by
  obtain ⟨s, h1, h2⟩ := C40_selects x hx sc fields h
  obtain ⟨id, m1, m2, m3⟩ := make_has x hx sc fv cp ref ser ht
  refine ⟨s, id, h1, m1, (h2 id m2).1.trans ?_⟩
  have hcpv : IsCompanyPrefix cp := by
    unfold Scheme.allFields at ht; split at ht
    · exact ht.2.1
    · exact ht.2.1
  have hall : id.head? = some sc.header ∧ field id 8 3 = decVal fv ∧ partitionOf id = partitionFor cp ∧
      companyOf id = decVal cp ∧ secondOf sc.width id = decVal ref ∧
      (sc.hasSerial → serialOf id = decVal ser) := by
    unfold Scheme.allFields at m3
    split at m3
    · obtain ⟨a, b, c, d, e, f⟩ := m3
      exact ⟨a, b, c, d, e, fun _ => f⟩
    · rename_i hs
      obtain ⟨a, b, c, d, e⟩ := m3
      exact ⟨a, b, c, d, e, fun h => absurd h hs⟩
  obtain ⟨b1, b2, b3, b4, b5, b6⟩ := hall
  have hcp : ∀ cp', IsCompanyPrefix cp' →
      (partitionOf id = partitionFor cp' ∧ companyOf id = decVal cp' ↔ cp' = cp) := by
    intro cp' h'
    rw [b3, b4]
    constructor
    · rintro ⟨e1, e2⟩
      have hl := partitionFor_inj hcpv h' e1
      exact padded_unique _ _ _ _ ⟨h'.1, hl.symm, e2.symm⟩ ⟨hcpv.1, rfl, rfl⟩
    · rintro rfl; exact ⟨rfl, rfl⟩
  match fields, h with
  | [fv'], h =>
    show (_ ∧ _) ↔ _
    rw [b2]
    exact ⟨fun h => h.2.symm, fun h => ⟨b1, h.symm⟩⟩
  | [fv', cp'], ⟨_, h⟩ =>
    show (_ ∧ _ ∧ _) ↔ _
    dsimp only
    rw [hcp cp' h, b2]
    exact ⟨fun h => ⟨h.2.1.symm, h.2.2⟩, fun h => ⟨b1, h.1.symm, h.2⟩⟩
  | [fv', cp', ref'], ⟨_, h, _⟩ =>
    show (_ ∧ _ ∧ _ ∧ _ ∧ _) ↔ _
    dsimp only
    rw [← hcp cp' h, b2, b5]
    exact ⟨fun h => ⟨h.2.1.symm, ⟨h.2.2.1, h.2.2.2.1⟩, h.2.2.2.2.symm⟩,
      fun h => ⟨b1, h.1.symm, h.2.1.1, h.2.1.2, h.2.2.symm⟩⟩
  | [fv', cp', ref', ser'], ⟨_, h, _, hs, _⟩ =>
    show (_ ∧ _ ∧ _ ∧ _ ∧ _ ∧ _) ↔ _
    dsimp only
    rw [← hcp cp' h, b2, b5, b6 hs]
    exact ⟨fun h => ⟨h.2.1.symm, ⟨h.2.2.1, h.2.2.2.1⟩, h.2.2.2.2.1.symm, h.2.2.2.2.2.symm⟩,
      fun h => ⟨b1, h.1.symm, h.2.1.1, h.2.1.2, h.2.2.1.symm, h.2.2.2.symm⟩⟩

example : Scheme.sscc.Encodable ["3".toList, "0614141".toList, "1234567890".toList] := by
  unfold Scheme.Encodable; decide +kernel

/-- A filter value above 7, or a company prefix of an impossible length, is no error: the first shifts
    all bits after it, the second selects partition 0, and both filters match tags that do not have
    these fields. -/
theorem C40_invalid_accepted : ∃ s t id id',
    sampleBinutil.encoder "sgtin-96".toList ["9".toList, "0614141".toList] = some s ∧
    (newFilter s 0).matchID id = some true ∧ field id 8 3 = 4 ∧ partitionOf id = 6 ∧
    sampleBinutil.encoder "sgtin-96".toList ["3".toList, "99999".toList] = some t ∧
    (newFilter t 0).matchID id' = some true ∧ partitionOf id' = 0 ∧ companyOf id' ≠ 99999 :=
  ⟨"001100001001101000010010101111011111101".toList, "0011000001100011000011010011111".toList,
    [48#8, 0x9A#8, 0x12#8, 0xBD#8, 0xFA#8, 0#8, 0#8, 0#8, 0#8, 0#8, 0#8, 0#8],
    [48#8, 0x63#8, 0x0D#8, 0x3E#8, 0#8, 0#8, 0#8, 0#8, 0#8, 0#8, 0#8, 0#8], by decide +kernel⟩

/-- In general: a company prefix of fewer than 6 or more than 12 digits is written with partition 0 and
    without padding, as is the reference behind it. -/
theorem C40_bad_company_prefix (x : Binutil) (sc : Scheme) (fv cp ref : Str)
    (h : cp.length < 6 ∨ 12 < cp.length) (hcp : cp ≠ []) (hr : ref ≠ []) :
    ∃ s, x.encoder sc.typeName [fv] = some s ∧
      x.encoder sc.typeName [fv, cp] = some (s ++ "000".toList ++ x.decToBin cp) ∧
      x.encoder sc.typeName [fv, cp, ref] =
        some (s ++ "000".toList ++ x.decToBin cp ++ x.decToBin ref) := by
  obtain ⟨h1, h2, h3, -⟩ := encoder_pieces x sc fv cp ref []
  have hrow : rowFor sc.table cp.length = none := by
    unfold rowFor
    rw [List.find?_eq_none]
    intro r hr
    have : ∀ r ∈ sc.table, 6 ≤ r.cpLength ∧ r.cpLength ≤ 12 := by cases sc <;> decide
    have := this r hr
    simp only [decide_eq_true_eq]
    omega
  have hp : partitionBits none = "000".toList := by decide
  have hc : ∀ s : Str, s ≠ [] → leftPad 0 (x.decToBin s) = x.decToBin s := by
    intro s _
    unfold leftPad
    rw [if_neg (by omega)]
  rw [hrow, hp] at h2 h3
  refine ⟨_, h1, h2.trans ?_, h3.trans ?_⟩
  · unfold Binutil.getCompanyPrefix
    rw [if_pos hcp]
    exact congrArg (fun t => some (_ ++ t)) (hc cp hcp)
  · unfold Binutil.getCompanyPrefix Binutil.getRef
    rw [if_pos hcp]
    dsimp only
    rw [if_pos hr]
    change some (_ ++ leftPad 0 _ ++ leftPad 0 _) = _
    rw [hc cp hcp, hc ref hr]

example : sampleBinutil.encoder "sgtin-96".toList ["3".toList, "99999".toList, "7".toList] =
    some ("00110000011".toList ++ "000".toList ++ "11000011010011111".toList ++ "111".toList) := by
  decide +kernel

/-! ### C41 -/

/-- Whatever the arguments and the external functions do: a tag has twelve bytes, the first of them
    the header. -/
theorem C41_length (x : Binutil) (sc : Scheme) (fv cp ref ser : Str) (m : Made)
    (h : sc.make x fv cp ref ser = some m) :
    m.id.length = 12 ∧ m.id.head? = some sc.header ∧ m.filter = [] ∧ m.pattern = [] := by
  rw [make_eq] at h
  split at h
  · cases h
  · unfold pack96 at h
    split at h
    · cases h
    · rename_i hlen
      rw [Option.map_eq_some_iff] at h
      obtain ⟨p, hp, rfl⟩ := h
      have := parseBin_length _ _ hp
      exact ⟨by rw [List.length_cons]; omega, rfl, rfl, rfl⟩

example : Scheme.sscc.make sampleBinutil [] "0614141".toList [] [] =
    some ⟨[49#8, 244#8, 37#8, 123#8, 247#8, 255#8, 255#8, 255#8, 255#8, 0#8, 0#8, 0#8], [], []⟩ := by
  decide +kernel

/-- With valid filter value and company prefix a tag is made, whatever is drawn for the missing
    fields. -/
theorem C41_succeeds (x : Binutil) (hx : x.Ok) (sc : Scheme) (fv cp ref ser : Str)
    (hfv : IsFilterValue fv) (hcp : IsCompanyPrefix cp)
    (href : ref = [] ∨ Fits (sc.width - companyBits (partitionFor cp)) ref)
    (hser : sc.hasSerial → ser = [] ∨ Fits 38 ser) :
    ∃ id, sc.make x fv cp ref ser = some ⟨id, [], []⟩ ∧ id.length = 12 ∧ sc.Has id [fv, cp] := by
  obtain ⟨id, h1, h2, h3⟩ := make_carries x hx sc fv cp ref ser hfv hcp href hser
  refine ⟨id, h1, h2, ?_⟩
  obtain ⟨s, e1, _, _, _, e2⟩ := encoder_carries x hx sc [fv, cp] ⟨hfv, hcp⟩
  rw [(encoder_pieces x sc fv cp [] []).2.1] at e1
  cases e1
  refine (e2 id (by omega)).mp ?_
  rw [← List.append_assoc, ← List.append_assoc, carries_append, carries_append] at h3
  simpa [List.append_assoc] using h3.1.1

example : IsFilterValue "0".toList ∧ IsCompanyPrefix "0614141".toList := by decide

/-- What does not come to 96 bits is an error, such as a reference with too many digits. -/
theorem C41_rejects : Scheme.sgtin.make sampleBinutil "3".toList "0614141".toList "99999999".toList
    "1".toList = none := by decide +kernel

theorem leftPad_length (w : Nat) (s : Str) : (leftPad w s).length = max w s.length := by
  unfold leftPad
  split
  · simp [zeroPadding]; omega
  · omega

/-- With a valid filter value and company prefix the call fails exactly when the second field or the
    serial needs more bits than there are. -/
theorem C41_error_iff (x : Binutil) (hx : x.Ok) (sc : Scheme) (fv cp ref ser : Str)
    (hfv : IsFilterValue fv) (hcp : IsCompanyPrefix cp)
    (href : ref = [] ∨ IsDigits ref ∧ decVal ref < 2 ^ 63)
    (hser : sc.hasSerial → ser = [] ∨ IsDigits ser ∧ decVal ser < 2 ^ 63) :
    sc.make x fv cp ref ser = none ↔
      (ref ≠ [] ∧ 2 ^ (sc.width - companyBits (partitionFor cp)) ≤ decVal ref) ∨
      (sc.hasSerial ∧ ser ≠ [] ∧ 2 ^ 38 ≤ decVal ser) := by
  constructor
  · intro h
    apply Classical.byContradiction
    intro hn
    obtain ⟨id, h1, _⟩ := C41_succeeds x hx sc fv cp ref ser hfv hcp
      (by
        rcases href with h | ⟨h1, h2⟩
        · exact Or.inl h
        · by_cases h0 : ref = []
          · exact Or.inl h0
          · exact Or.inr ⟨h1, h0, by
              apply Classical.byContradiction; intro h3; exact hn (Or.inl ⟨h0, by omega⟩)⟩)
      (by
        intro hs
        rcases hser hs with h | ⟨h1, h2⟩
        · exact Or.inl h
        · by_cases h0 : ser = []
          · exact Or.inl h0
          · exact Or.inr ⟨h1, h0, by
              apply Classical.byContradiction; intro h3; exact hn (Or.inr ⟨hs, h0, by omega⟩)⟩)
    rw [h] at h1; cases h1
  · intro h
    have hf := getFilter_padded x fv hfv
    obtain ⟨hp, hc, hr⟩ := pieces_padded x hx sc cp hcp
    obtain ⟨_, _, hcb, h7⟩ := company_bound cp hcp
    have hw := sc.width_bounds
    have hne : cp ≠ [] := by intro e; have := hcp.2.1; simp [e] at this
    have h20 : ∀ p < 7, 20 ≤ companyBits p := by decide
    have := h20 _ h7
    have hrow := rowFor_spec sc.isTable cp hcp
    -- every piece has at least its bits, and the one that does not fit has more
    have hrl : (x.getRef ref (rowFor sc.table cp.length)).length ≥ sc.width - companyBits (partitionFor cp) ∧
        (ref ≠ [] → 2 ^ (sc.width - companyBits (partitionFor cp)) ≤ decVal ref →
          (x.getRef ref (rowFor sc.table cp.length)).length > sc.width - companyBits (partitionFor cp)) := by
      rw [hrow]
      by_cases h0 : ref = []
      · subst h0
        have := (getRef_random x hx ⟨12 - partitionFor cp, partitionFor cp, companyBits (partitionFor cp),
          sc.width - companyBits (partitionFor cp), sc.digits (partitionFor cp)⟩).2
        refine ⟨?_, fun h => absurd rfl h⟩
        exact Nat.le_of_eq this.symm
      · have hd := href.resolve_left h0
        have hb := hx.decToBin ref hd.1 h0 hd.2
        unfold Binutil.getRef
        simp only [Option.map_some, Option.getD_some, ne_eq, h0, not_false_eq_true, if_true, leftPad_length]
        refine ⟨Nat.le_max_left _ _, fun _ h => ?_⟩
        have := binNumeral_length _ (sc.width - companyBits (partitionFor cp)) _ hb (by omega)
        omega
    have htl : (sc.tail x ser).length ≥ 82 - sc.width ∧
        (sc.hasSerial → ser ≠ [] → 2 ^ 38 ≤ decVal ser → (sc.tail x ser).length > 82 - sc.width) := by
      have hs : sc.hasSerial → (x.getSerial ser).length ≥ 38 ∧ (ser ≠ [] → 2 ^ 38 ≤ decVal ser →
          (x.getSerial ser).length > 38) := by
        intro hsc
        unfold Binutil.getSerial
        by_cases h0 : ser = []
        · simp only [ne_eq, h0, not_true_eq_false, if_false]
          exact ⟨Nat.le_of_eq (hx.randomBits 2 38 (2 ^ 38)).2.symm, fun h => h.elim⟩
        · have hd := (hser hsc).resolve_left h0
          have hb := hx.decToBin ser hd.1 h0 hd.2
          simp only [ne_eq, h0, not_false_eq_true, if_true, leftPad_length]
          refine ⟨Nat.le_max_left _ _, fun _ h => ?_⟩
          have := binNumeral_length _ 38 _ hb (by omega)
          omega
      cases sc
      · exact ⟨(hs trivial).1, fun _ => (hs trivial).2⟩
      · exact ⟨by simp [Scheme.tail, zeroPadding, Scheme.width], fun h => h.elim⟩
      · exact ⟨(hs trivial).1, fun _ => (hs trivial).2⟩
      · exact ⟨by simp [Scheme.width], fun h => h.elim⟩
    rw [make_eq, if_neg hne]
    unfold pack96
    rw [if_pos]
    simp only [List.length_append, hf.2.1, hp.2.1, hc.2.1]
    rcases h with ⟨h1, h2⟩ | ⟨h1, h2, h3⟩
    · have := hrl.2 h1 h2; omega
    · have := htl.2 h1 h2 h3; omega

example : IsCompanyPrefix "061414112345".toList ∧
    Scheme.giai.width - companyBits (partitionFor "061414112345".toList) = 42 ∧
    IsDigits "9999999999999".toList ∧ 2 ^ 42 ≤ decVal "9999999999999".toList ∧
    Scheme.giai.make sampleBinutil "3".toList "061414112345".toList "9999999999999".toList [] = none := by
  decide +kernel

/-! ### C31 -/

theorem wellFormed_digits (sc : Scheme) (fields : List Str) (h : sc.WellFormed fields) :
    fields ≠ [] ∧ ∀ f ∈ fields, IsDigits f := by
  have hc : ∀ cp ref, sc.Canonical cp ref → IsDigits ref := by
    intro cp ref h
    cases sc
    · exact h.1
    · exact h.1
    · exact h.1
    · exact h.1.1
  match fields, h with
  | [fv], h => exact ⟨by simp, by simp; exact h.1⟩
  | [fv, cp], h => exact ⟨by simp, by simp; exact ⟨h.1.1, h.2.1⟩⟩
  | [fv, cp, ref], h => exact ⟨by simp, by simp; exact ⟨h.1.1, h.2.1.1, hc _ _ h.2.2⟩⟩
  | [fv, cp, ref, ser], h =>
    exact ⟨by simp, by simp; exact ⟨h.1.1, h.2.1.1, hc _ _ h.2.2.1, h.2.2.2.2.1.1⟩⟩

theorem mem_intercalate (c d : Char) (l : List Str) (h : c ∈ [d].intercalate l) :
    c = d ∨ ∃ f ∈ l, c ∈ f := by
  induction l with
  | nil => simp [List.intercalate] at h
  | cons f l ih =>
    cases l with
    | nil => right; exact ⟨f, by simp, by simpa [List.intercalate] using h⟩
    | cons g l =>
      rw [intercalate_cons₂, List.mem_append, List.mem_cons] at h
      rcases h with h | h | h
      · exact Or.inr ⟨f, by simp, h⟩
      · exact Or.inl h
      · rcases ih h with h | ⟨f', hf, h⟩
        · exact Or.inl h
        · exact Or.inr ⟨f', List.mem_cons_of_mem _ hf, h⟩

/-- a digit is neither a separator nor changed by `ToUpper` -/
theorem digit_plain (c : Char) (h : '0' ≤ c ∧ c ≤ '9') : c ≠ ':' ∧ c ≠ '.' ∧ c.toUpper = c := by
  obtain ⟨h1, h2⟩ := h
  refine ⟨?_, ?_, ?_⟩
  · rintro rfl; exact absurd h2 (by decide)
  · rintro rfl; exact absurd h1 (by decide)
  · have h3 : c.val.toNat ≤ 57 := h2
    unfold Char.toUpper
    rw [dif_neg]
    intro h
    have : (97 : Nat) ≤ c.val.toNat := h.1
    omega

theorem patternText_pieces (sc : Scheme) (fields : List Str) (h : sc.WellFormed fields) :
    Pieces ':' (sc.patternText fields)
      ["urn".toList, "epc".toList, "pat".toList, sc.typeName, ['.'].intercalate fields] ∧
    Pieces ':' (sc.typeName ++ ':' :: ['.'].intercalate fields)
      [sc.typeName, ['.'].intercalate fields] ∧
    Pieces '.' (['.'].intercalate fields) fields ∧
    toUpper (['.'].intercalate fields) = ['.'].intercalate fields := by
  obtain ⟨hne, hd⟩ := wellFormed_digits sc fields h
  have hcol : ':' ∉ ['.'].intercalate fields := by
    intro hm
    rcases mem_intercalate _ _ _ hm with h | ⟨f, hf, hc⟩
    · exact absurd h (by decide)
    · exact (digit_plain _ (hd f hf _ hc)).1 rfl
  have ht : ':' ∉ sc.typeName := by cases sc <;> decide
  refine ⟨⟨by simp, ?_, ?_⟩, ⟨by simp, ?_, ?_⟩, ⟨hne, ?_, rfl⟩, ?_⟩
  · intro p hp
    simp only [List.mem_cons, List.not_mem_nil, or_false] at hp
    rcases hp with rfl | rfl | rfl | rfl | rfl
    · decide
    · decide
    · decide
    · exact ht
    · exact hcol
  · unfold Scheme.patternText
    rw [intercalate_cons₂, intercalate_cons₂, intercalate_cons₂, intercalate_cons₂,
      List.intercalate_singleton]
    have e : "urn:epc:pat:".toList = "urn".toList ++ ':' :: ("epc".toList ++ ':' :: ("pat".toList ++ [':']))
      := by decide
    have e2 : ":".toList = [':'] := rfl
    rw [e, e2]
    simp only [List.append_assoc, List.cons_append, List.nil_append]
  · intro p hp
    simp only [List.mem_cons, List.not_mem_nil, or_false] at hp
    rcases hp with rfl | rfl
    · exact ht
    · exact hcol
  · rw [intercalate_cons₂, List.intercalate_singleton]
  · intro f hf hc
    exact (digit_plain _ (hd f hf _ hc)).2.1 rfl
  · unfold toUpper
    conv => rhs; rw [← List.map_id (['.'].intercalate fields)]
    apply List.map_congr_left
    intro c hc
    rcases mem_intercalate _ _ _ hc with rfl | ⟨f, hf, hc⟩
    · rfl
    · exact (digit_plain _ (hd f hf _ hc)).2.2

/-- What a well-formed pattern text consists of for the binary engines. -/
theorem C31_pattern (sc : Scheme) (fields : List Str) (h : sc.WellFormed fields) (t : Str)
    (fs : List Str) : PatternOf (sc.patternText fields) t fs ↔ t = sc.typeName ∧ fs = fields := by
  obtain ⟨_, h2, h3, h4⟩ := patternText_pieces sc fields h
  have hstrip : trimPrefix (sc.patternText fields) "urn:epc:pat:".toList
      = sc.typeName ++ ':' :: ['.'].intercalate fields := by
    rw [← stripped_iff]
    left
    unfold Scheme.patternText
    have e2 : ":".toList = [':'] := rfl
    rw [e2]
    simp only [List.append_assoc, List.cons_append, List.nil_append]
  constructor
  · rintro ⟨body, f, s1, s2, s3⟩
    rw [stripped_iff, hstrip] at s1
    rw [← s1, ← splitOn_iff, (splitOn_iff _ _ _).mpr h2] at s2
    simp only [List.cons.injEq, and_true] at s2
    obtain ⟨rfl, rfl⟩ := s2
    rw [h4, ← splitOn_iff, (splitOn_iff _ _ _).mpr h3] at s3
    exact ⟨rfl, s3.symm⟩
  · rintro ⟨rfl, rfl⟩
    exact ⟨_, _, (stripped_iff _ _ _).mpr hstrip, h2, by rw [h4]; exact h3⟩

example : Scheme.sgtin.patternText ["3".toList, "0614141".toList]
    = "urn:epc:pat:sgtin-96:3.0614141".toList := by decide +kernel

/-- what the legacy engine compares with -/
theorem patternText_textForm (sc : Scheme) (fv : Str) (rest : List Str)
    (h : sc.WellFormed (fv :: rest)) :
    TextForm (sc.patternText (fv :: rest)) (sc.name ++ ':' :: ['.'].intercalate rest) := by
  obtain ⟨h1, _, h3, _⟩ := patternText_pieces sc _ h
  refine ⟨_, _, _, _, _, h1, Or.inl ⟨sc.name, ⟨rfl, ?_⟩, fv, rest, h3, rfl⟩⟩
  cases sc <;> decide

theorem stripped_urn (sc : Scheme) (l : List Str) :
    Stripped "urn:epc:id:".toList (sc.urn l) (sc.name ++ ':' :: ['.'].intercalate l) := by
  left
  unfold Scheme.urn
  have e2 : ":".toList = [':'] := rfl
  rw [e2]
  simp only [List.append_assoc, List.cons_append, List.nil_append]

theorem has_head (sc : Scheme) (id : List Byte) (fields : List Str) (h : sc.Has id fields) :
    id.head? = some sc.header := by
  match fields, h with
  | [_], h => exact h.1
  | [_, _], h => exact h.1
  | [_, _, _], h => exact h.1
  | [_, _, _, _], h => exact h.1

/-- If the binary filter of a well-formed pattern matches a translatable EPC tag then the legacy
    engine's text comparison matches its identity. -/
theorem C31_binary_implies_text (x : Binutil) (hx : x.Ok) (sc : Scheme) (fields : List Str)
    (h : sc.WellFormed fields) (p0 p1 : Byte) (hp : p0.toNat % 2 = 0) (id : List Byte) (ident : Str)
    (htr : translate [p0, p1] id = some (ident, false)) (s : Str)
    (hs : x.encoder sc.typeName fields = some s) (hc : Covers s 0 id)
    (hm : (newFilter s 0).matchID id = some true) : TextMatches ident (sc.patternText fields) := by
  obtain ⟨s', e1, e2, e3, e4, e5⟩ := encoder_carries x hx sc fields (wellFormed_encodable sc fields h)
  rw [hs] at e1
  cases e1
  rw [(C01_match_iff_carries s e2.filterStr 0 id hc).1, e5 id (by have := hc.1; omega)] at hm
  have hh := has_head sc id fields hm
  have hl : id.length = 12 := by
    apply Classical.byContradiction
    intro hl
    obtain ⟨l, rfl⟩ := head_cons id _ hh
    have := C37_length p0 p1 sc.header l hp (by cases sc <;> decide) hl
    rw [htr] at this
    cases this
  have hser : Numeral (serialOf id) (decStr (serialOf id)) := decStr_numeral _
  have h7 : ∀ cp, IsCompanyPrefix cp → partitionFor cp < 7 ∧ 12 - partitionFor cp = cp.length := by
    intro cp hcp
    refine ⟨(company_bound cp hcp).2.2.2, ?_⟩
    have := hcp.2
    unfold partitionFor; omega
  match fields, h, hm with
  | [fv], h, _ =>
    obtain ⟨rest, rfl, _⟩ := identity_shape p0 p1 hp sc id hl hh ident false htr
    refine ⟨_, _, patternText_textForm sc fv [] h, stripped_urn sc [rest], ?_⟩
    rw [List.intercalate_singleton]
    exact ⟨rest, by simp [List.intercalate]⟩
  | [fv, cp], h, ⟨_, _, b3, b4⟩ =>
    obtain ⟨rest, rfl, hrest⟩ := identity_shape p0 p1 hp sc id hl hh ident false htr
    obtain ⟨c, rest', q1, q2⟩ := hrest (by rw [b3]; exact (h7 cp h.2).1)
    rw [b3, b4, (h7 cp h.2).2] at q1
    have := padded_unique _ _ _ _ q1 ⟨h.2.1, rfl, rfl⟩
    subst this
    refine ⟨_, _, patternText_textForm sc fv [c] h, stripped_urn sc [rest], ?_⟩
    rw [List.intercalate_singleton, List.intercalate_singleton, q2]
    exact ⟨'.' :: rest', by simp⟩
  | [fv, cp, ref], h, ⟨_, _, b3, b4, b5⟩ =>
    have := urn_of_fields p0 p1 hp sc id hl hh cp ref _ h.2.1 h.2.2 b3 b4 b5 fun _ => hser
    rw [htr] at this
    simp only [Option.some.injEq, Prod.mk.injEq, and_true] at this
    subst this
    refine ⟨_, _, patternText_textForm sc fv [cp, ref] h, stripped_urn sc _, ?_⟩
    split
    · exact ⟨'.' :: decStr (serialOf id), by simp [List.intercalate]⟩
    · exact List.prefix_rfl
  | [fv, cp, ref, ser], h, ⟨_, _, b3, b4, b5, b6⟩ =>
    have hh' := h
    obtain ⟨_, h1, h2, h3, h4, _⟩ := hh'
    have := urn_of_fields p0 p1 hp sc id hl hh cp ref ser h1 h2 b3 b4 b5 fun _ => by rw [b6]; exact h4
    rw [htr, if_pos h3] at this
    simp only [Option.some.injEq, Prod.mk.injEq, and_true] at this
    subst this
    exact ⟨_, _, patternText_textForm sc fv [cp, ref, ser] h, stripped_urn sc _, List.prefix_rfl⟩

example : Scheme.sgtin.WellFormed ["3".toList, "0614141".toList, "812345".toList] ∧
    (sampleBinutil.encoder "sgtin-96".toList ["3".toList, "0614141".toList, "812345".toList]).map
      (fun s => (newFilter s 0).matchID
        [48#8, 116#8, 37#8, 123#8, 247#8, 25#8, 78#8, 64#8, 0#8, 0#8, 26#8, 133#8]) = some (some true) ∧
    legacyMatches "urn:epc:id:sgtin:0614141.812345.6789".toList
      "urn:epc:pat:sgtin-96:3.0614141.812345".toList = true := by
  refine ⟨?_, by decide +kernel, by decide +kernel⟩
  unfold Scheme.WellFormed
  decide +kernel

theorem mem_toByteSubscriptions {mk : Encoder} {sub : Subs} {k u : Str}
    (h : (k, u) ∈ toByteSubscriptions mk sub) : Subscribes mk sub u k := by
  have h1 := mapGet_of_mem (isMap_toByteSubscriptions mk sub) h
  rw [mapGet_toByteSubscriptions] at h1
  exact (mem_storeOrder mk sub u k).mp (List.mem_reverse.mp (mapGet_mem h1))

/-- The reports of the binary engines for a translatable EPC tag are among those of the legacy
    engine with the same subscriptions. -/
theorem C31_reports (x : Binutil) (hx : x.Ok) (sub : Subs) (hsub : AllWellFormed sub)
    (p0 p1 : Byte) (hp : p0.toNat % 2 = 0) (id : List Byte) (ident : Str)
    (htr : translate [p0, p1] id = some (ident, false)) (uris : List Str)
    (hc : Covered (toByteSubscriptions x.encoder sub) id) (bsub : FlatSubs)
    (hb : ∀ e ∈ bsub, e ∈ toByteSubscriptions x.encoder sub) (hr : ReportsInKeyOrder bsub id uris) :
    ∃ r, legacySearch translate sub [p0, p1] id = some r ∧ ∀ u ∈ uris, u ∈ r.reportURIs := by
  refine ⟨_, by unfold legacySearch; rw [htr], ?_⟩
  intro u hu
  obtain ⟨hits, _, h2, rfl⟩ := hr
  obtain ⟨⟨k, u'⟩, hk, rfl⟩ := List.mem_map.mp hu
  obtain ⟨hmem, hpre⟩ := (h2 k u').mp hk
  replace hmem := hb _ hmem
  obtain ⟨hbit, hcov⟩ := hc k u' hmem
  obtain ⟨pats, hin, pat, hpat, t, fs, hof, henc⟩ := mem_toByteSubscriptions hmem
  obtain ⟨sc, fields, hw, rfl⟩ := hsub _ hin _ hpat
  obtain ⟨rfl, rfl⟩ := (C31_pattern sc fields hw t fs).mp hof
  have hs : x.encoder sc.typeName fs = some k := by
    rcases henc with h | ⟨h, _⟩
    · exact h
    · obtain ⟨s', e, _⟩ := encoder_carries x hx sc fs (wellFormed_encodable sc fs hw)
      rw [e] at h; cases h
  have hm : (newFilter k 0).matchID id = some true := by
    rw [matchID_prefix0 hbit hcov]; simp [hpre]
  have := C31_binary_implies_text x hx sc fs hw p0 p1 hp id ident htr k hs hcov hm
  rw [List.mem_flatMap]
  refine ⟨_, hin, ?_⟩
  rw [List.mem_map]
  refine ⟨_, List.mem_filter.mpr ⟨hpat, (legacyMatches_iff _ _).mpr this⟩, rfl⟩

/-- The list engine, the Patricia trie and the splay tree in particular. -/
theorem C31_engines (x : Binutil) (hx : x.Ok) (sub : Subs) (hsub : AllWellFormed sub)
    (p0 p1 : Byte) (hp : p0.toNat % 2 = 0) (id : List Byte) (ident : Str)
    (htr : translate [p0, p1] id = some (ident, false))
    (hc : Covered (toByteSubscriptions x.encoder sub) id) :
    ∃ r, legacySearch translate sub [p0, p1] id = some r ∧
      (∃ q, (newList x.encoder sub).search translate [p0, p1] id = some q ∧
        ∀ u ∈ q.reportURIs, u ∈ r.reportURIs) ∧
      (id ≠ [] → UrisNonEmpty sub →
        ∃ q, (newPatricia x.encoder sub).searchEngine translate [p0, p1] id = some q ∧
          ∀ u ∈ q.reportURIs, u ∈ r.reportURIs) ∧
      (toByteSubscriptions x.encoder sub ≠ [] →
        ∃ t q t', newSplay x.encoder sub = some t ∧
          t.searchEngine translate [p0, p1] id = some (q, t') ∧
          ∀ u ∈ q.reportURIs, u ∈ r.reportURIs) := by
  have key := fun uris => C31_reports x hx sub hsub p0 p1 hp id ident htr uris hc
  have htn : translate [p0, p1] id ≠ none := by rw [htr]; simp
  obtain ⟨uris, h1, h2, h3⟩ := C16_search x.encoder translate sub [p0, p1] id hc
  obtain ⟨r, e, h4⟩ := key uris _ (fun _ h => h) h1
  have key : ∀ uris bsub, (∀ e ∈ bsub, e ∈ toByteSubscriptions x.encoder sub) →
      ReportsInKeyOrder bsub id uris → ∀ u ∈ uris, u ∈ r.reportURIs := by
    intro uris bsub hb hr
    obtain ⟨r', e', h⟩ := key uris bsub hb hr
    rw [e] at e'; cases e'
    exact h
  refine ⟨r, e, ?_, fun hid hu => ?_, fun hne => ?_⟩
  · by_cases hu : uris = []
    · exact ⟨_, h2 hu, by intro u h; cases h⟩
    · have h3 := h3 hu
      rw [htr] at h3
      exact ⟨_, h3, h4⟩
  · obtain ⟨uris, q1, q2⟩ := C18_search x.encoder translate sub hu [p0, p1] id hid hc
    obtain ⟨q, q3, q4⟩ := finishSearch_some uris htn
    rw [q3] at q2
    exact ⟨q, q2, by rw [q4]; exact key uris _ (fun e he => (List.mem_filter.mp he).1) q1⟩
  · obtain ⟨t, uris, t', q0, q1, q2⟩ := C22_first_search x.encoder translate sub hne [p0, p1] id hc
    obtain ⟨q, q3, q4⟩ := finishSearch_some uris htn
    rw [q3] at q2
    exact ⟨t, q, t', q0, q2, by rw [q4]; exact key uris _ (fun e he => he) q1⟩

example : AllWellFormed [("u".toList, ["urn:epc:pat:sgtin-96:3.0614141".toList])] ∧
    Covered (toByteSubscriptions sampleBinutil.encoder
      [("u".toList, ["urn:epc:pat:sgtin-96:3.0614141".toList])])
      [48#8, 116#8, 37#8, 123#8, 247#8, 25#8, 78#8, 64#8, 0#8, 0#8, 26#8, 133#8] := by
  constructor
  · intro e he pat hpat
    simp only [List.mem_cons, List.not_mem_nil, or_false] at he
    subst he
    simp only [List.mem_cons, List.not_mem_nil, or_false] at hpat
    subst hpat
    refine ⟨.sgtin, ["3".toList, "0614141".toList], ?_, by decide +kernel⟩
    unfold Scheme.WellFormed; decide +kernel
  · have e : toByteSubscriptions sampleBinutil.encoder
        [("u".toList, ["urn:epc:pat:sgtin-96:3.0614141".toList])] =
        [("00110000011101000010010101111011111101".toList, "u".toList)] := by decide +kernel
    rw [e]
    intro k u h
    simp only [List.mem_cons, List.not_mem_nil, or_false, Prod.mk.injEq] at h
    obtain ⟨rfl, rfl⟩ := h
    decide

/-- The converse fails: the legacy engine ignores the filter value, and its comparison does not stop
    at the end of a field. -/
theorem C31_converse_fails :
    let id := [48#8, 116#8, 37#8, 123#8, 247#8, 25#8, 78#8, 64#8, 0#8, 0#8, 26#8, 133#8]
    translate [0#8, 0#8] id = some ("urn:epc:id:sgtin:0614141.812345.6789".toList, false) ∧
    legacyMatches "urn:epc:id:sgtin:0614141.812345.6789".toList
      "urn:epc:pat:sgtin-96:1.0614141".toList = true ∧
    (sampleBinutil.encoder "sgtin-96".toList ["1".toList, "0614141".toList]).map (fun s =>
      (newFilter s 0).matchID id) = some (some false) ∧
    legacyMatches "urn:epc:id:sgtin:0614141.812345.6789".toList
      "urn:epc:pat:sgtin-96:3.061414".toList = true ∧
    (sampleBinutil.encoder "sgtin-96".toList ["3".toList, "061414".toList]).map (fun s =>
      (newFilter s 0).matchID id) = some (some false) := by decide +kernel

/-- It needs the EPC mark in the PC: the binary filters ignore the PC, so the bits of an ISO tag can
    match the filter of an EPC pattern that the text of its identity does not match. -/
theorem C31_iso_confused :
    let id := [48#8, 116#8, 37#8, 123#8, 247#8, 25#8, 78#8, 64#8, 0#8, 0#8, 26#8, 133#8]
    (sampleBinutil.encoder "sgtin-96".toList ["3".toList]).map (fun s => (newFilter s 0).matchID id)
      = some (some true) ∧
    ∃ ident, translate [1#8, 169#8] id = some (ident, false) ∧
      legacyMatches ident "urn:epc:pat:sgtin-96:3".toList = false :=
  ⟨by decide +kernel, _, rfl, by decide +kernel⟩

end Gosstrak
