import Verif.Proofs.Dataset
import Mathlib.Tactic.Choose
import Mathlib.Data.List.Forall2

/-! ## The data sets of the simulations: C81 -/
namespace Gosstrak

/-- SGTIN-96: two filters, and `n` tags with the serials 0, 1, … which both select. -/
theorem C81_sgtin (x : Binutil) (hx : x.Ok) (t : BinText) (ht : t.Ok) (n : Nat) (hn : n ≤ 2 ^ 38)
    (r : Nat → Str) (p : UIIParam) (hp : p.schemeName = "sgtin-96".toList)
    (hcp : IsCompanyPrefix p.companyPrefix) (hir : IsDigits p.itemReference)
    (hl : p.itemReference.length = 13 - p.companyPrefix.length) :
    ∃ l1 l2 s1 s2 tags, x.uiiSet t n r p = some (if p.noFilter then [] else [l1, l2], tags) ∧
      FilterLine x "sgtin-96".toList ["3".toList, p.companyPrefix] l1 s1 ∧
      FilterLine x "sgtin-96".toList ["3".toList, p.companyPrefix, p.itemReference] l2 s2 ∧
      tags.length = n ∧ ∀ k < n, ∃ l id, tags[k]? = some l ∧
        TagLine l id (Scheme.sgtin.urn [p.companyPrefix, p.itemReference, decStr k]) ∧
        Matched s1 id ∧ Matched s2 id := by
  have hc := hcp.2
  have hcan : Scheme.sgtin.Canonical p.companyPrefix p.itemReference := ⟨hir, by unfold partitionFor; omega⟩
  have hne : p.companyPrefix ≠ [] := by intro e; rw [e] at hc; simp at hc
  have hine : p.itemReference ≠ [] := by intro e; rw [e] at hl; simp at hl; omega
  obtain ⟨s1, f1, g1⟩ := filter_line x hx t .sgtin p.companyPrefix [] [] [] []
    ["3".toList, p.companyPrefix] [[], []] ⟨by simp, by simp [hne]⟩ (by simp) rfl ⟨filter3, hcp⟩
  obtain ⟨s2, f2, g2⟩ := filter_line x hx t .sgtin p.companyPrefix p.itemReference [] [] []
    ["3".toList, p.companyPrefix, p.itemReference] [[]] ⟨by simp, by simp [hne, hine]⟩ (by simp) rfl
    (wellFormed_encodable .sgtin [_, _, _] ⟨filter3, hcp, hcan⟩)
  refine ⟨_, _, s1, s2, (List.range n).map fun k => x.epcLine t false Scheme.sgtin.typeName
    p.companyPrefix p.itemReference [] (decStr k) [] [], ?_, f1, f2, ?_, ?_⟩
  · unfold Binutil.uiiSet
    rw [if_pos hp, hp]
    rfl
  · simp
  · intro k hk
    obtain ⟨h1, h2, h3⟩ := dec_fits k
    have hw : Scheme.sgtin.WellFormed (Scheme.sgtin.allFields "3".toList p.companyPrefix
        (Scheme.sgtin.second p.itemReference [] [] []) (decStr k)) :=
      ⟨filter3, hcp, hcan, trivial, by rw [h3]; exact decStr_numeral k, by rw [h3]; omega⟩
    obtain ⟨id, a1, a2, a3, a4⟩ := tag_line x hx t ht .sgtin p.companyPrefix p.itemReference [] (decStr k)
      [] [] hw
    exact ⟨_, id, range_get n k hk _, a1, g1 id a2 a3, g2 id a2 a4⟩

example : IsCompanyPrefix "0614141".toList ∧ IsDigits "812345".toList ∧ "812345".toList.length = 13 - 7 ∧
    sampleBinutil.uiiSet sampleBinText 1 (fun _ => [])
      { schemeName := "sgtin-96".toList, companyPrefix := "0614141".toList,
        itemReference := "812345".toList, noFilter := false } =
    some (["urn:epc:pat:sgtin-96:3.0614141,00110000011101000010010101111011111101".toList,
        "urn:epc:pat:sgtin-96:3.0614141.812345,0011000001110100001001010111101111110111000110010100111001".toList],
      ["3000,001100000111010000100101011110111111011100011001010011100100000000000000000000000000000000000000".toList])
    := by decide +kernel

/-- SSCC-96: one filter, and `n` tags with the drawn references, which it selects. -/
theorem C81_sscc (x : Binutil) (hx : x.Ok) (t : BinText) (ht : t.Ok) (n : Nat)
    (r : Nat → Str) (p : UIIParam) (hp : p.schemeName = "sscc-96".toList)
    (hcp : IsCompanyPrefix p.companyPrefix)
    (hr : ∀ k < n, IsDigits (r k) ∧ (r k).length = 17 - p.companyPrefix.length) :
    ∃ l1 s1 tags, x.uiiSet t n r p = some (if p.noFilter then [] else [l1], tags) ∧
      FilterLine x "sscc-96".toList ["3".toList, p.companyPrefix] l1 s1 ∧
      tags.length = n ∧ ∀ k < n, ∃ l id, tags[k]? = some l ∧
        TagLine l id (Scheme.sscc.urn [p.companyPrefix, r k]) ∧ Matched s1 id := by
  have hc := hcp.2
  have hne : p.companyPrefix ≠ [] := by intro e; rw [e] at hc; simp at hc
  obtain ⟨s1, f1, g1⟩ := filter_line x hx t .sscc p.companyPrefix [] [] [] []
    ["3".toList, p.companyPrefix] [[], []] ⟨by simp, by simp [hne]⟩ (by simp) rfl ⟨filter3, hcp⟩
  refine ⟨_, s1, (List.range n).map fun k => x.epcLine t false Scheme.sscc.typeName
    p.companyPrefix [] (r k) [] [] [], ?_, f1, ?_, ?_⟩
  · unfold Binutil.uiiSet
    rw [if_neg (by rw [hp]; decide), if_pos hp, hp]
    rfl
  · simp
  · intro k hk
    have hw : Scheme.sscc.WellFormed (Scheme.sscc.allFields "3".toList p.companyPrefix
        (Scheme.sscc.second [] (r k) [] []) []) :=
      ⟨filter3, hcp, (hr k hk).1, by rw [show Scheme.sscc.second [] (r k) [] [] = r k from rfl, (hr k hk).2]; unfold partitionFor; omega⟩
    obtain ⟨id, a1, a2, a3, _⟩ := tag_line x hx t ht .sscc p.companyPrefix [] (r k) [] [] [] hw
    exact ⟨_, id, range_get n k hk _, a1, g1 id a2 a3⟩

example : IsDigits "1234567890".toList ∧ "1234567890".toList.length = 17 - "0614141".toList.length := by decide

/-- GIAI-96: one filter, and `n` lines; the line of a drawn reference that fits its bits is a tag which
    the filter selects, the others are blank. -/
theorem C81_giai (x : Binutil) (hx : x.Ok) (t : BinText) (ht : t.Ok) (n : Nat)
    (r : Nat → Str) (p : UIIParam) (hp : p.schemeName = "giai-96".toList)
    (hcp : IsCompanyPrefix p.companyPrefix)
    (hr : ∀ k < n, Numeral (decVal (r k)) (r k) ∧ decVal (r k) < 2 ^ 63) :
    ∃ l1 s1 tags, x.uiiSet t n r p = some (if p.noFilter then [] else [l1], tags) ∧
      FilterLine x "giai-96".toList ["3".toList, p.companyPrefix] l1 s1 ∧
      tags.length = n ∧ ∀ k < n, ∃ l, tags[k]? = some l ∧
        (decVal (r k) < 2 ^ (82 - companyBits (partitionFor p.companyPrefix)) →
          ∃ id, TagLine l id (Scheme.giai.urn [p.companyPrefix, r k]) ∧ Matched s1 id) ∧
        (2 ^ (82 - companyBits (partitionFor p.companyPrefix)) ≤ decVal (r k) → l = []) := by
  have hc := hcp.2
  have hne : p.companyPrefix ≠ [] := by intro e; rw [e] at hc; simp at hc
  obtain ⟨s1, f1, g1⟩ := filter_line x hx t .giai p.companyPrefix [] [] [] []
    ["3".toList, p.companyPrefix] [[], []] ⟨by simp, by simp [hne]⟩ (by simp) rfl ⟨filter3, hcp⟩
  refine ⟨_, s1, (List.range n).map fun k => x.epcLine t false Scheme.giai.typeName
    p.companyPrefix [] [] [] (r k) [], ?_, f1, ?_, ?_⟩
  · unfold Binutil.uiiSet
    rw [if_neg (by rw [hp]; decide), if_neg (by rw [hp]; decide), if_pos hp, hp]
    rfl
  · simp
  · intro k hk
    obtain ⟨h1, h2⟩ := hr k hk
    refine ⟨_, range_get n k hk _, fun hfit => ?_, fun hbig => ?_⟩
    · have hw : Scheme.giai.WellFormed (Scheme.giai.allFields "3".toList p.companyPrefix
          (Scheme.giai.second [] [] (r k) []) []) := ⟨filter3, hcp, h1, hfit⟩
      obtain ⟨id, a1, a2, a3, _⟩ := tag_line x hx t ht .giai p.companyPrefix [] [] [] (r k) [] hw
      exact ⟨id, a1, g1 id a2 a3⟩
    · have hmk := (C41_error_iff x hx .giai "3".toList p.companyPrefix (r k) [] filter3 hcp
        (Or.inr ⟨h1.1, h2⟩) (fun h => h.elim)).mpr (Or.inl ⟨h1.2.1, hbig⟩)
      obtain ⟨bs, b1, _, b3, b4⟩ := C80_epc_error x t ht "giai-96".toList "3".toList p.companyPrefix [] []
        [] (r k) []
      have hbs : bs = [] := b4.mpr fun sc hsc => by
        rw [named_unique sc .giai _ hsc rfl]; exact hmk
      show x.epcLine t false "giai-96".toList p.companyPrefix [] [] [] (r k) [] = []
      unfold Binutil.epcLine
      rw [b1]
      exact b3.mpr hbs

example : (let p : UIIParam := { schemeName := "giai-96".toList, companyPrefix := "061414112345".toList, noFilter := false }
    IsCompanyPrefix p.companyPrefix ∧ Numeral 9999999999999 "9999999999999".toList ∧
    (sampleBinutil.uiiSet sampleBinText 2 (fun k => if k = 0 then "9999999999999".toList else "12".toList) p).map
      (fun o => o.2.map List.length) = some [0, 101]) := by decide +kernel

/-- GRAI-96: two filters, and `n` tags with the serials 0, 1, … which both select. -/
theorem C81_grai (x : Binutil) (hx : x.Ok) (t : BinText) (ht : t.Ok) (n : Nat) (hn : n ≤ 2 ^ 38)
    (r : Nat → Str) (p : UIIParam) (hp : p.schemeName = "grai-96".toList)
    (hcp : IsCompanyPrefix p.companyPrefix) (h11 : p.companyPrefix.length ≤ 11) (hat : IsDigits p.assetType)
    (hl : p.assetType.length = 12 - p.companyPrefix.length) :
    ∃ l1 l2 s1 s2 tags, x.uiiSet t n r p = some (if p.noFilter then [] else [l1, l2], tags) ∧
      FilterLine x "grai-96".toList ["3".toList, p.companyPrefix] l1 s1 ∧
      FilterLine x "grai-96".toList ["3".toList, p.companyPrefix, p.assetType] l2 s2 ∧
      tags.length = n ∧ ∀ k < n, ∃ l id, tags[k]? = some l ∧
        TagLine l id (Scheme.grai.urn [p.companyPrefix, p.assetType, decStr k]) ∧
        Matched s1 id ∧ Matched s2 id := by
  have hc := hcp.2
  have hcan : Scheme.grai.Canonical p.companyPrefix p.assetType :=
    ⟨hat, by unfold partitionFor; omega, by unfold partitionFor; omega⟩
  have hne : p.companyPrefix ≠ [] := by intro e; rw [e] at hc; simp at hc
  have hine : p.assetType ≠ [] := by intro e; rw [e] at hl; simp at hl; omega
  obtain ⟨s1, f1, g1⟩ := filter_line x hx t .grai p.companyPrefix [] [] [] []
    ["3".toList, p.companyPrefix] [[], []] ⟨by simp, by simp [hne]⟩ (by simp) rfl ⟨filter3, hcp⟩
  obtain ⟨s2, f2, g2⟩ := filter_line x hx t .grai p.companyPrefix [] [] [] p.assetType
    ["3".toList, p.companyPrefix, p.assetType] [[]] ⟨by simp, by simp [hne, hine]⟩ (by simp) rfl
    (wellFormed_encodable .grai [_, _, _] ⟨filter3, hcp, hcan⟩)
  refine ⟨_, _, s1, s2, (List.range n).map fun k => x.epcLine t false Scheme.grai.typeName
    p.companyPrefix [] [] (decStr k) [] p.assetType, ?_, f1, f2, ?_, ?_⟩
  · unfold Binutil.uiiSet
    rw [if_neg (by rw [hp]; decide), if_neg (by rw [hp]; decide), if_neg (by rw [hp]; decide), if_pos hp, hp]
    rfl
  · simp
  · intro k hk
    obtain ⟨h1, h2, h3⟩ := dec_fits k
    have hw : Scheme.grai.WellFormed (Scheme.grai.allFields "3".toList p.companyPrefix
        (Scheme.grai.second [] [] [] p.assetType) (decStr k)) :=
      ⟨filter3, hcp, hcan, trivial, by rw [h3]; exact decStr_numeral k, by rw [h3]; omega⟩
    obtain ⟨id, a1, a2, a3, a4⟩ := tag_line x hx t ht .grai p.companyPrefix [] [] (decStr k)
      [] p.assetType hw
    exact ⟨_, id, range_get n k hk _, a1, g1 id a2 a3, g2 id a2 a4⟩

example : IsCompanyPrefix "06141411234".toList ∧ "06141411234".toList.length ≤ 11 ∧
    "7".toList.length = 12 - "06141411234".toList.length := by decide

/-- the container tag with empty equipment identifier is the one with U -/
theorem make17363_default (x : Binutil) (oc csn : Str) (ho : oc ≠ []) :
    x.makeISO17363 false oc [] csn = x.makeISO17363 false oc "U".toList csn := by
  unfold Binutil.makeISO17363
  simp [ho]

/-- ISO 17363: one filter, and `n` container tags with the serials 000000, 000001, … which it selects. -/
theorem C81_iso17363 (x : Binutil) (hx : x.Ok) (t : BinText) (ht : t.Ok) (n : Nat) (hn : n ≤ 1000000)
    (r : Nat → Str) (p : UIIParam) (hp : p.schemeName = "17363".toList)
    (ho : IsCode p.ownerCode) (ho3 : p.ownerCode.length = 3) :
    ∃ l1 s1 tags, x.uiiSet t n r p = some (if p.noFilter then [] else [l1], tags) ∧
      FilterLine x "iso17363".toList ["7B".toList, p.ownerCode] l1 s1 ∧
      tags.length = n ∧ ∀ k < n, ∃ l id, tags[k]? = some l ∧
        TagLine l id ("urn:epc:id:iso17363:".toList ++ ("7B".toList ++ p.ownerCode ++ "U".toList ++
          sixDigits (decStr k) ++
          [Char.ofNat (48 + checkDigit (p.ownerCode ++ "U".toList ++ sixDigits (decStr k)))])) ∧
        Matched s1 id := by
  have hone : p.ownerCode ≠ [] := by intro e; rw [e] at ho3; cases ho3
  have hu : IsCode "U".toList := by decide
  obtain ⟨-, ⟨s1, e1, m1⟩, -⟩ := C80_iso_filter x t p.ownerCode "U".toList [] [] "0".toList "0".toList
    "0".toList hone (by decide) (by decide) (by decide) (by decide)
  have es1 : s1 = x.sixBits "7B".toList ++ x.sixBits p.ownerCode := by
    have : x.encoder "iso17363".toList ["7B".toList, p.ownerCode] =
        some (x.sixBits "7B".toList ++ x.sixBits p.ownerCode) := rfl
    rw [this] at e1; cases e1; rfl
  have hs1 : s1.length ≠ 0 := by
    rw [es1, ← sixBits_append, (sixBits_bits x hx _ (IsSixBit.orSpace (IsSixBit.append (by decide) ho.sixBit))).2,
      List.length_append, ho3]
    decide
  have hfl : x.isoLine t true "17363".toList p.ownerCode [] [] [] [] [] [] =
      some ("urn:epc:pat:iso17363:".toList ++ ['.'].intercalate ["7B".toList, p.ownerCode] ++ ",".toList ++ s1) := by
    have e : x.makeISO t true "17363".toList p.ownerCode [] [] [] [] [] [] =
        x.makeISO t true "17363".toList p.ownerCode [] [] [] "0".toList "0".toList "0".toList := rfl
    unfold Binutil.isoLine
    rw [e, m1]
    show some (printID s1 _) = _
    unfold printID
    rw [if_neg hs1]
    rfl
  -- the tags
  have htag : ∀ k < n, ∃ l id, x.isoLine t false "17363".toList p.ownerCode [] (decStr k) [] [] [] [] = some l ∧
      TagLine l id ("urn:epc:id:iso17363:".toList ++ ("7B".toList ++ p.ownerCode ++ "U".toList ++
          sixDigits (decStr k) ++
          [Char.ofNat (48 + checkDigit (p.ownerCode ++ "U".toList ++ sixDigits (decStr k)))])) ∧
        Matched s1 id := by
    intro k hk
    obtain ⟨h1, h2, h3⟩ := dec_fits k
    have h6 : (decStr k).length ≤ 6 := (numeral_length k 6 _ (decStr_numeral k) (by omega)).mpr (by omega)
    obtain ⟨bs, id, a1, a2, a3, a4, a5⟩ := C80_iso17363_tag x hx t ht p.ownerCode "U".toList (decStr k)
      [] [] [] [] ho ho3 hu rfl h1 h2 h6
    have e : x.makeISO t false "17363".toList p.ownerCode [] (decStr k) [] [] [] [] =
        x.makeISO t false "17363".toList p.ownerCode "U".toList (decStr k) [] [] [] [] := by
      unfold Binutil.makeISO
      rw [if_pos rfl, if_pos rfl, make17363_default x _ _ hone]
    refine ⟨_, id, ?_, ⟨"29a9".toList, bs, 41#8, 169#8, rfl, a4, a5⟩, ?_⟩
    · unfold Binutil.isoLine
      rw [e, a1]
      show some (printID bs _) = _
      rw [a2]
      rfl
    · obtain ⟨t1, t2, t3⟩ := make17363 x false p.ownerCode "U".toList (decStr k) ho ho3 hu rfl h1 h2 h6
      rw [if_neg (by decide)] at t3
      obtain ⟨id', m, j, q1, q2, q3, q4, q5, q6, q7⟩ := packISO_spec x hx _ t1.orSpace
        (by intro h; rw [h] at t2; cases t2)
      have hid : id = id' := by
        refine isoTexts_id t ht _ "A9".toList bs _ ?_ id' _ _ m (t3.trans q1) _ _ id a4
        unfold Binutil.makeISO at a1
        rwa [if_pos rfl] at a1
      subst hid
      rw [es1, ← sixBits_append]
      have hsplit : ∀ c, "7B".toList ++ p.ownerCode ++ "U".toList ++ sixDigits (decStr k) ++ [c] =
          ("7B".toList ++ p.ownerCode) ++ ("U".toList ++ sixDigits (decStr k) ++ [c]) := by
        intro c; simp only [List.append_assoc]
      rw [hsplit] at t1 q6 q7
      exact iso_matched x hx _ _ t1 (by simp) id j q6 q7
  choose! line id hline htl hmt using htag
  refine ⟨_, s1, (List.range n).map line, ?_, ⟨e1, rfl⟩, by simp, fun k hk => ?_⟩
  · unfold Binutil.uiiSet
    rw [if_neg (by rw [hp]; decide), if_neg (by rw [hp]; decide), if_neg (by rw [hp]; decide),
      if_neg (by rw [hp]; decide), if_pos hp, hp, allOf_map n hline, hfl]
    cases p.noFilter <;> rfl
  · exact ⟨_, id k, range_get n k hk _, htl k hk, hmt k hk⟩

example : (sampleBinutil.uiiSet sampleBinText 2 (fun _ => [])
      { schemeName := "17363".toList, ownerCode := "CSQ".toList, noFilter := false }) =
    some (["urn:epc:pat:iso17363:7B.CSQ,110111000010000011010011010001".toList],
      ["29a9,11011100001000001101001101000101010111000011000011000011000011000011000011000110".toList,
       "29a9,11011100001000001101001101000101010111000011000011000011000011000011000111011110".toList]) := by
  decide +kernel

/-- ISO 17365: two filters, and `n` tags with the drawn serials, which both select. -/
theorem C81_iso17365 (x : Binutil) (hx : x.Ok) (t : BinText) (ht : t.Ok) (n : Nat)
    (r : Nat → Str) (p : UIIParam) (hp : p.schemeName = "17365".toList)
    (hd : IsSixBit p.dataIdentifier) (hi : IsSixBit p.issuingAgencyCode) (hi0 : p.issuingAgencyCode ≠ [])
    (hc : IsSixBit p.companyIdentification) (hc0 : p.companyIdentification ≠ [])
    (hr : ∀ k < n, IsSixBit (r k) ∧ r k ≠ [] ∧ p.dataIdentifier.length + p.issuingAgencyCode.length +
      p.companyIdentification.length + (r k).length ≤ 82) :
    ∃ l1 l2 s1 s2 tags, x.uiiSet t n r p = some (if p.noFilter then [] else [l1, l2], tags) ∧
      FilterLine x "iso17365".toList [p.dataIdentifier, p.issuingAgencyCode] l1 s1 ∧
      FilterLine x "iso17365".toList [p.dataIdentifier, p.issuingAgencyCode, p.companyIdentification] l2 s2 ∧
      tags.length = n ∧ ∀ k < n, ∃ l id, tags[k]? = some l ∧
        TagLine l id ("urn:epc:id:iso17365:".toList ++ (p.dataIdentifier ++ p.issuingAgencyCode ++
          p.companyIdentification ++ r k)) ∧ Matched s1 id ∧ Matched s2 id := by
  obtain ⟨-, -, -, -, ⟨s1, e1, m1⟩, ⟨s2, e2, m2⟩, -⟩ := C80_iso_filter x t "0".toList "0".toList [] 
    p.dataIdentifier p.issuingAgencyCode p.companyIdentification "0".toList (by decide) (by decide) hi0 hc0
    (by decide)
  have es1 : s1 = x.sixBits (p.dataIdentifier ++ p.issuingAgencyCode) := by
    have : x.encoder "iso17365".toList [p.dataIdentifier, p.issuingAgencyCode] =
        some (x.sixBits p.dataIdentifier ++ x.sixBits p.issuingAgencyCode) := rfl
    rw [this] at e1; cases e1; rw [sixBits_append]
  have es2 : s2 = x.sixBits (p.dataIdentifier ++ p.issuingAgencyCode ++ p.companyIdentification) := by
    have : x.encoder "iso17365".toList [p.dataIdentifier, p.issuingAgencyCode, p.companyIdentification] =
        some (x.sixBits p.dataIdentifier ++ x.sixBits p.issuingAgencyCode ++
          x.sixBits p.companyIdentification) := rfl
    rw [this] at e2; cases e2; rw [sixBits_append, sixBits_append]
  have hlen1 : 0 < p.issuingAgencyCode.length := List.length_pos_iff.mpr hi0
  have hs1 : s1.length ≠ 0 := by
    rw [es1, (sixBits_bits x hx _ (hd.append hi).orSpace).2, List.length_append]
    omega
  have hs2 : s2.length ≠ 0 := by
    rw [es2, (sixBits_bits x hx _ ((hd.append hi).append hc).orSpace).2, List.length_append,
      List.length_append]
    omega
  have hfl1 : x.isoLine t true "17365".toList [] [] [] p.dataIdentifier p.issuingAgencyCode [] [] =
      some ("urn:epc:pat:iso17365:".toList ++
        ['.'].intercalate [p.dataIdentifier, p.issuingAgencyCode] ++ ",".toList ++ s1) := by
    have e : x.makeISO t true "17365".toList [] [] [] p.dataIdentifier p.issuingAgencyCode [] [] =
        x.makeISO t true "17365".toList "0".toList "0".toList [] p.dataIdentifier p.issuingAgencyCode [] [] := rfl
    unfold Binutil.isoLine
    rw [e, m1]
    show some (printID s1 _) = _
    unfold printID
    rw [if_neg hs1]
    rfl
  have hfl2 : x.isoLine t true "17365".toList [] [] [] p.dataIdentifier p.issuingAgencyCode
        p.companyIdentification [] =
      some ("urn:epc:pat:iso17365:".toList ++
        ['.'].intercalate [p.dataIdentifier, p.issuingAgencyCode, p.companyIdentification] ++ ",".toList ++ s2) := by
    have e : x.makeISO t true "17365".toList [] [] [] p.dataIdentifier p.issuingAgencyCode
          p.companyIdentification [] =
        x.makeISO t true "17365".toList "0".toList "0".toList [] p.dataIdentifier p.issuingAgencyCode
          p.companyIdentification [] := rfl
    unfold Binutil.isoLine
    rw [e, m2]
    show some (printID s2 _) = _
    unfold printID
    rw [if_neg hs2]
    rfl
  have htag : ∀ k < n, ∃ l id, x.isoLine t false "17365".toList [] [] [] p.dataIdentifier
        p.issuingAgencyCode p.companyIdentification (r k) = some l ∧
      TagLine l id ("urn:epc:id:iso17365:".toList ++ (p.dataIdentifier ++ p.issuingAgencyCode ++
          p.companyIdentification ++ r k)) ∧ Matched s1 id ∧ Matched s2 id := by
    intro k hk
    obtain ⟨h1, h2, h3⟩ := hr k hk
    obtain ⟨bs, pc, p0, id, a1, a2, a3, a4, a5, a6⟩ := C80_iso17365_tag x hx t ht [] [] [] p.dataIdentifier
      p.issuingAgencyCode p.companyIdentification (r k) hd hi hi0 hc hc0 h1 h2 h3
    have hsix := ((hd.append hi).append hc).append h1
    have hm : x.makeISO17365 false p.dataIdentifier p.issuingAgencyCode p.companyIdentification (r k) =
        Binutil.packISO (x.sixBits (p.dataIdentifier ++ p.issuingAgencyCode ++ p.companyIdentification ++ r k)) := by
      unfold Binutil.makeISO17365
      simp only [hi0, hc0, h2, false_and, if_false, sixBits_append]
      rfl
    obtain ⟨id', m, j, q1, q2, q3, q4, q5, q6, q7⟩ := packISO_spec x hx _ hsix.orSpace (by simp [h2])
    have hid : id = id' := by
      refine isoTexts_id t ht _ "A2".toList bs _ ?_ id' _ _ m (hm.trans q1) _ _ id a5
      unfold Binutil.makeISO at a1
      rwa [if_neg (by decide), if_pos rfl] at a1
    subst hid
    refine ⟨_, id, ?_, ⟨pc, bs, p0, 162#8, rfl, a5, a6⟩, ?_, ?_⟩
    · unfold Binutil.isoLine
      rw [a1]
      show some (printID bs _) = _
      rw [a2]
    · rw [List.append_assoc (p.dataIdentifier ++ p.issuingAgencyCode)] at hsix q6 q7
      rw [es1]
      exact iso_matched x hx _ _ hsix (by simp [hi0]) id j q6 q7
    · rw [es2]
      exact iso_matched x hx _ _ hsix (by simp [hi0]) id j q6 q7
  choose! line id hline htl hmt using htag
  refine ⟨_, _, s1, s2, (List.range n).map line, ?_, ⟨e1, rfl⟩, ⟨e2, rfl⟩, by simp, fun k hk => ?_⟩
  · unfold Binutil.uiiSet
    rw [if_neg (by rw [hp]; decide), if_neg (by rw [hp]; decide), if_neg (by rw [hp]; decide),
      if_neg (by rw [hp]; decide), if_neg (by rw [hp]; decide), if_pos hp, hp]
    dsimp only
    rw [allOf_map n hline, hfl1, hfl2]
    cases p.noFilter <;> rfl
  · exact ⟨_, id k, range_get n k hk _, htl k hk, (hmt k hk).1, (hmt k hk).2⟩

example : IsSixBit "25S".toList ∧ IsSixBit "ABC".toList ∧
    (sampleBinutil.uiiSet sampleBinText 1 (fun _ => "1234567890".toList)
      { schemeName := "17365".toList, dataIdentifier := "25S".toList, issuingAgencyCode := "U".toList,
        companyIdentification := "ABC".toList, noFilter := false }) =
    some (["urn:epc:pat:iso17365:25S.U,110010110101010011010101".toList,
        "urn:epc:pat:iso17365:25S.U.ABC,110010110101010011010101000001000010000011".toList],
      ["39a2,1100101101010100110101010000010000100000111100011100101100111101001101011101101101111110001110011100001000001000".toList])
    := by decide +kernel

/-- the ISO 17365 parameter set of a round -/
theorem C81_round17365 (x : Binutil) (hx : x.Ok) (t : BinText) (ht : t.Ok) (n : Nat) (r : Nat → Str) (cin : Str)
    (h : IsCode cin ∧ 3 ≤ cin.length ∧ cin.length ≤ 7) (nf : Bool)
    (hr : ∀ k < n, IsSixBit (r k) ∧ r k ≠ [] ∧ (r k).length ≤ 71) :
    ∃ l1 l2 s1 s2 tags, x.uiiSet t n r
        { schemeName := "17365".toList
          dataIdentifier := "25S".toList
          issuingAgencyCode := "U".toList
          companyIdentification := cin
          noFilter := nf } = some (if nf then [] else [l1, l2], tags) ∧
      FilterLine x "iso17365".toList ["25S".toList, "U".toList] l1 s1 ∧
      FilterLine x "iso17365".toList ["25S".toList, "U".toList, cin] l2 s2 ∧
      tags.length = n ∧ ∀ k < n, ∃ l id, tags[k]? = some l ∧
        TagLine l id ("urn:epc:id:iso17365:".toList ++ ("25S".toList ++ "U".toList ++ cin ++ r k)) ∧
        Matched s1 id ∧ Matched s2 id := by
  have d1 : IsSixBit "25S".toList := by decide
  have d2 : IsSixBit "U".toList := by decide
  have d3 : "U".toList ≠ [] := by decide
  refine C81_iso17365 x hx t ht n r
    { schemeName := "17365".toList, dataIdentifier := "25S".toList, issuingAgencyCode := "U".toList,
      companyIdentification := cin, noFilter := nf } rfl d1 d2 d3 h.1.sixBit
    (by intro e; have := h.2.1; dsimp only at e; rw [e] at this; simp at this)
    (fun k hk => ⟨(hr k hk).1, (hr k hk).2.1, ?_⟩)
  have h1 := (hr k hk).2.2
  have h2 := h.2.2
  show 3 + 1 + cin.length + _ ≤ 82
  omega

/-- The parameter sets without filters serve as tags that no filter selects; but the first filter of any
    ISO 17365 set selects the tags of all of them, because all have the same data identifier and agency. -/
theorem C81_mismatch (x : Binutil) (hx : x.Ok) (t : BinText) (ht : t.Ok) (n : Nat)
    (r r' : Nat → Str) (d d' : Draw) (h : d.Ok) (h' : d'.Ok)
    (hr : ∀ k < n, IsSixBit (r k) ∧ r k ≠ [] ∧ (r k).length ≤ 71)
    (hr' : ∀ k < n, IsSixBit (r' k) ∧ r' k ≠ [] ∧ (r' k).length ≤ 71) :
    ∃ p ∈ d.params false, ∃ q ∈ d'.params true, ∃ l s fs tags tags',
      x.uiiSet t n r p = some (fs, tags) ∧ l ∈ fs ∧
      FilterLine x "iso17365".toList ["25S".toList, "U".toList] l s ∧
      x.uiiSet t n r' q = some ([], tags') ∧ tags'.length = n ∧
      ∀ k < n, ∃ l id ident, tags'[k]? = some l ∧ TagLine l id ident ∧ Matched s id := by
  obtain ⟨l1, l2, s1, s2, tags, a1, a2, a3, a4, a5⟩ :=
    C81_round17365 x hx t ht n r d.companyIdentification h.company false hr
  obtain ⟨l1', l2', s1', s2', tags', b1, b2, b3, b4, b5⟩ :=
    C81_round17365 x hx t ht n r' d'.companyIdentification h'.company true hr'
  have hs : s1' = s1 := Option.some.inj (b2.1.symm.trans a2.1)
  subst hs
  refine ⟨_, ?_, _, ?_, l1, s1', [l1, l2], tags, tags', a1, by simp, a2, b1, b4, ?_⟩
  · unfold Draw.params; simp
  · unfold Draw.params; simp
  · intro k hk
    obtain ⟨l, id, c1, c2, c3, _⟩ := b5 k hk
    exact ⟨l, id, _, c1, c2, c3⟩

/-- two rounds of draws -/
def sampleDraw : Draw :=
  { cp := "0614141".toList
    itemReferences := List.replicate 9 "812345".toList ++ ["000000".toList]
    ssccPrefixes := ["0614141".toList, "123456".toList]
    giaiPrefixes := ["061414112345".toList, "123456".toList]
    graiPrefix := "06141411234".toList
    assetTypes := ["0".toList, "7".toList]
    ownerCode := "CSQ".toList
    companyIdentification := "AB1".toList }

theorem sampleDraw_ok : sampleDraw.Ok := by
  constructor <;> decide +kernel

example : ∃ d : Draw, d.Ok ∧ IsSixBit "ABCDEF1234".toList ∧ "ABCDEF1234".toList.length ≤ 71 :=
  ⟨sampleDraw, sampleDraw_ok, by decide⟩

/-- the filter line with these fields -/
def lineOf (x : Binutil) (ty : Str) (fields : List Str) : Str :=
  "urn:epc:pat:".toList ++ ty ++ ":".toList ++ ['.'].intercalate fields ++ ",".toList ++
    (x.encoder ty fields).getD []

theorem FilterLine.eq {x : Binutil} {ty : Str} {fields : List Str} {l s : Str} (h : FilterLine x ty fields l s) :
    l = lineOf x ty fields := by
  unfold lineOf
  rw [h.2, h.1]
  rfl

theorem lineOf_ne (x : Binutil) (ty : Str) (fields : List Str) : lineOf x ty fields ≠ [] := by
  unfold lineOf
  simp

theorem both_some {f tags : Option (List Str)} {a b : List Str} (h : both f tags = some (a, b)) :
    f = some a ∧ tags = some b := by
  unfold both at h
  split at h
  · cases h; exact ⟨rfl, rfl⟩
  · cases h

/-- the filter lines do not depend on the tags -/
theorem uiiSet_filters (x : Binutil) (t : BinText) (n : Nat) (r : Nat → Str) (p : UIIParam) (fs tags : List Str)
    (h : x.uiiSet t n r p = some (fs, tags)) : x.uiiSet t 0 (fun _ => []) p = some (fs, []) := by
  unfold Binutil.uiiSet at h ⊢
  dsimp only at h ⊢
  by_cases h1 : p.schemeName = "sgtin-96".toList
  · rw [if_pos h1] at h ⊢
    rw [← (Prod.mk.inj (Option.some.inj h)).1]
    rfl
  rw [if_neg h1] at h ⊢
  by_cases h2 : p.schemeName = "sscc-96".toList
  · rw [if_pos h2] at h ⊢
    rw [← (Prod.mk.inj (Option.some.inj h)).1]
    rfl
  rw [if_neg h2] at h ⊢
  by_cases h3 : p.schemeName = "giai-96".toList
  · rw [if_pos h3] at h ⊢
    rw [← (Prod.mk.inj (Option.some.inj h)).1]
    rfl
  rw [if_neg h3] at h ⊢
  by_cases h4 : p.schemeName = "grai-96".toList
  · rw [if_pos h4] at h ⊢
    rw [← (Prod.mk.inj (Option.some.inj h)).1]
    rfl
  rw [if_neg h4] at h ⊢
  by_cases h5 : p.schemeName = "17363".toList
  · rw [if_pos h5] at h ⊢
    rw [(both_some h).1]
    rfl
  rw [if_neg h5] at h ⊢
  by_cases h6 : p.schemeName = "17365".toList
  · rw [if_pos h6] at h ⊢
    rw [(both_some h).1]
    rfl
  rw [if_neg h6] at h ⊢
  rw [← (Prod.mk.inj (Option.some.inj h)).1]

/-- the filter lines of a parameter set -/
def setFilters (x : Binutil) (t : BinText) (p : UIIParam) : List Str :=
  ((x.uiiSet t 0 (fun _ => []) p).getD ([], [])).1

theorem filters_of_outs (x : Binutil) (t : BinText) (ps : List UIIParam) (outs : List (List Str))
    (h : List.Forall₂ (fun p fs => ∃ n r tags, x.uiiSet t n r p = some (fs, tags)) ps outs) :
    outs.flatten = ps.flatMap (setFilters x t) := by
  induction h with
  | nil => rfl
  | @cons p fs ps outs h1 h2 ih =>
    obtain ⟨n, r, tags, e⟩ := h1
    rw [List.flatten_cons, List.flatMap_cons, ih]
    have : setFilters x t p = fs := by
      unfold setFilters
      rw [uiiSet_filters x t n r p fs tags e]
      rfl
    rw [this]

/-- the different filter lines of a round, without the one that all rounds have -/
def roundCover (x : Binutil) (d : Draw) : List Str :=
  [lineOf x "sgtin-96".toList ["3".toList, d.cp]] ++
  (d.itemReferences.map fun ir => lineOf x "sgtin-96".toList ["3".toList, d.cp, ir]) ++
  (d.ssccPrefixes.map fun cp => lineOf x "sscc-96".toList ["3".toList, cp]) ++
  (d.giaiPrefixes.map fun cp => lineOf x "giai-96".toList ["3".toList, cp]) ++
  [lineOf x "grai-96".toList ["3".toList, d.graiPrefix]] ++
  (d.assetTypes.map fun a => lineOf x "grai-96".toList ["3".toList, d.graiPrefix, a]) ++
  [lineOf x "iso17363".toList ["7B".toList, d.ownerCode],
   lineOf x "iso17365".toList ["25S".toList, "U".toList, d.companyIdentification]]

/-- all filter lines of a round -/
def roundLines (x : Binutil) (d : Draw) : List Str :=
  (d.itemReferences.flatMap fun ir => [lineOf x "sgtin-96".toList ["3".toList, d.cp],
    lineOf x "sgtin-96".toList ["3".toList, d.cp, ir]]) ++
  (d.ssccPrefixes.flatMap fun cp => [lineOf x "sscc-96".toList ["3".toList, cp]]) ++
  (d.giaiPrefixes.flatMap fun cp => [lineOf x "giai-96".toList ["3".toList, cp]]) ++
  (d.assetTypes.flatMap fun a => [lineOf x "grai-96".toList ["3".toList, d.graiPrefix],
    lineOf x "grai-96".toList ["3".toList, d.graiPrefix, a]]) ++
  ([lineOf x "iso17363".toList ["7B".toList, d.ownerCode]] ++
   [lineOf x "iso17365".toList ["25S".toList, "U".toList],
    lineOf x "iso17365".toList ["25S".toList, "U".toList, d.companyIdentification]])

theorem flatMap_congr' {α β : Type} (l : List α) (f g : α → List β) (h : ∀ a ∈ l, f a = g a) :
    l.flatMap f = l.flatMap g := by
  induction l with
  | nil => rfl
  | cons a l ih =>
    rw [List.flatMap_cons, List.flatMap_cons, h a (by simp), ih fun b hb => h b (by simp [hb])]

theorem round_filters (x : Binutil) (hx : x.Ok) (t : BinText) (ht : t.Ok) (d : Draw) (hd : d.Ok) :
    (d.params false).flatMap (setFilters x t) = roundLines x d := by
  unfold Draw.params roundLines
  simp only [List.flatMap_append, List.flatMap_map, List.flatMap_cons, List.flatMap_nil, List.append_nil]
  congr 1
  · congr 1
    · congr 1
      · congr 1
        · refine flatMap_congr' _ _ _ fun ir hir => ?_
          obtain ⟨l1, l2, s1, s2, tags, a1, a2, a3, -⟩ := C81_sgtin x hx t ht 0 (by decide) (fun _ => [])
            { schemeName := "sgtin-96".toList, companyPrefix := d.cp, itemReference := ir, noFilter := false }
            rfl hd.cp (hd.items.2 ir hir).1 (hd.items.2 ir hir).2
          unfold setFilters
          rw [a1, ← a2.eq, ← a3.eq]
          rfl
        · refine flatMap_congr' _ _ _ fun cp hcp => ?_
          obtain ⟨l1, s1, tags, a1, a2, -⟩ := C81_sscc x hx t ht 0 (fun _ => [])
            { schemeName := "sscc-96".toList, companyPrefix := cp, noFilter := false }
            rfl (hd.ssccs.2 cp hcp) (fun k hk => absurd hk (by omega))
          unfold setFilters
          rw [a1, ← a2.eq]
          rfl
      · refine flatMap_congr' _ _ _ fun cp hcp => ?_
        obtain ⟨l1, s1, tags, a1, a2, -⟩ := C81_giai x hx t ht 0 (fun _ => [])
          { schemeName := "giai-96".toList, companyPrefix := cp, noFilter := false }
          rfl (hd.giais.2 cp hcp) (fun k hk => absurd hk (by omega))
        unfold setFilters
        rw [a1, ← a2.eq]
        rfl
    · refine flatMap_congr' _ _ _ fun a ha => ?_
      obtain ⟨l1, l2, s1, s2, tags, a1, a2, a3, -⟩ := C81_grai x hx t ht 0 (by decide) (fun _ => [])
        { schemeName := "grai-96".toList, companyPrefix := d.graiPrefix, assetType := a, noFilter := false }
        rfl hd.grai.1 hd.grai.2 (hd.assets.2 a ha).1 (hd.assets.2 a ha).2
      unfold setFilters
      rw [a1, ← a2.eq, ← a3.eq]
      rfl
  · obtain ⟨l1, s1, tags, a1, a2, -⟩ := C81_iso17363 x hx t ht 0 (by decide) (fun _ => [])
      { schemeName := "17363".toList, ownerCode := d.ownerCode, noFilter := false }
      rfl hd.owner.1 hd.owner.2
    obtain ⟨m1, m2, u1, u2, tags', b1, b2, b3, -⟩ := C81_round17365 x hx t ht 0 (fun _ => [])
      d.companyIdentification hd.company false (fun k hk => absurd hk (by omega))
    unfold setFilters
    rw [a1, b1, ← a2.eq, ← b2.eq, ← b3.eq]
    rfl

theorem length_flatMap_const {α β : Type} (l : List α) (f : α → List β) (k : Nat) (h : ∀ a ∈ l, (f a).length = k) :
    (l.flatMap f).length = k * l.length := by
  induction l with
  | nil => rfl
  | cons a l ih =>
    rw [List.flatMap_cons, List.length_append, h a (by simp), ih fun b hb => h b (by simp [hb]),
      List.length_cons, Nat.mul_succ, Nat.add_comm]

theorem roundLines_facts (x : Binutil) (d : Draw) (hd : d.Ok) :
    (roundLines x d).length = 31 ∧ (roundCover x d).length = 20 ∧ (∀ l ∈ roundLines x d, l ≠ []) ∧
    ∀ l ∈ roundLines x d, l = lineOf x "iso17365".toList ["25S".toList, "U".toList] ∨ l ∈ roundCover x d := by
  refine ⟨?_, ?_, ?_, ?_⟩
  · unfold roundLines
    simp only [List.length_append]
    rw [length_flatMap_const _ _ 2 (fun _ _ => rfl), length_flatMap_const _ _ 1 (fun _ _ => rfl),
      length_flatMap_const _ _ 1 (fun _ _ => rfl), length_flatMap_const _ _ 2 (fun _ _ => rfl),
      hd.items.1, hd.ssccs.1, hd.giais.1, hd.assets.1]
    rfl
  · unfold roundCover
    simp only [List.length_append, List.length_map]
    rw [hd.items.1, hd.ssccs.1, hd.giais.1, hd.assets.1]
    rfl
  · intro l hl
    unfold roundLines at hl
    simp only [List.mem_append, List.mem_flatMap, List.mem_cons, List.not_mem_nil, or_false] at hl
    rcases hl with (((⟨_, _, h | h⟩ | ⟨_, _, h⟩) | ⟨_, _, h⟩) | ⟨_, _, h | h⟩) | h | h | h <;>
      rw [h] <;> exact lineOf_ne _ _ _
  · intro l hl
    unfold roundLines at hl
    unfold roundCover
    simp only [List.mem_append, List.mem_flatMap, List.mem_cons, List.not_mem_nil, or_false, List.mem_map] at hl ⊢
    rcases hl with (((⟨a, ha, h | h⟩ | ⟨a, ha, h⟩) | ⟨a, ha, h⟩) | ⟨a, ha, h | h⟩) | h | h | h
    · exact Or.inr (Or.inl (Or.inl (Or.inl (Or.inl (Or.inl (Or.inl h))))))
    · exact Or.inr (Or.inl (Or.inl (Or.inl (Or.inl (Or.inl (Or.inr ⟨a, ha, h.symm⟩))))))
    · exact Or.inr (Or.inl (Or.inl (Or.inl (Or.inl (Or.inr ⟨a, ha, h.symm⟩)))))
    · exact Or.inr (Or.inl (Or.inl (Or.inl (Or.inr ⟨a, ha, h.symm⟩))))
    · exact Or.inr (Or.inl (Or.inl (Or.inr h)))
    · exact Or.inr (Or.inl (Or.inr ⟨a, ha, h.symm⟩))
    · exact Or.inr (Or.inr (Or.inl h))
    · exact Or.inl h
    · exact Or.inr (Or.inr (Or.inr h))

/-- The filter file of the rounds `ds` has 31 lines for each, none of them blank, but at most 20 different
    ones for each and one more. -/
theorem C81_counts (x : Binutil) (hx : x.Ok) (t : BinText) (ht : t.Ok) (ds : List Draw)
    (hd : ∀ d ∈ ds, d.Ok) (outs : List (List Str))
    (h : List.Forall₂ (fun p fs => ∃ n r tags, x.uiiSet t n r p = some (fs, tags))
      (ds.flatMap (·.params false)) outs) :
    outs.flatten.length = 31 * ds.length ∧ (∀ l ∈ outs.flatten, l ≠ []) ∧
    (filterFile outs.flatten = outs.flatten.flatMap (· ++ ['\n'])) ∧
    ∃ cover : List Str, cover.length = 20 * ds.length + 1 ∧ ∀ l ∈ outs.flatten, l ∈ cover := by
  have hF : outs.flatten = ds.flatMap (roundLines x) := by
    rw [filters_of_outs x t _ outs h, List.flatMap_assoc]
    exact flatMap_congr' _ _ _ fun d hd' => round_filters x hx t ht d (hd d hd')
  have hne : ∀ l ∈ outs.flatten, l ≠ [] := by
    rw [hF]
    intro l hl
    obtain ⟨d, h1, h2⟩ := List.mem_flatMap.mp hl
    exact (roundLines_facts x d (hd d h1)).2.2.1 l h2
  refine ⟨?_, hne, ?_, lineOf x "iso17365".toList ["25S".toList, "U".toList] :: ds.flatMap (roundCover x), ?_, ?_⟩
  · rw [hF]
    exact length_flatMap_const _ _ _ fun d h1 => (roundLines_facts x d (hd d h1)).1
  · unfold filterFile
    refine flatMap_congr' _ _ _ fun l hl => ?_
    rw [if_pos fun e => hne l hl (List.length_eq_zero_iff.mp e)]
  · rw [List.length_cons, length_flatMap_const _ _ 20 fun d h1 => (roundLines_facts x d (hd d h1)).2.1]
  · rw [hF]
    intro l hl
    obtain ⟨d, h1, h2⟩ := List.mem_flatMap.mp hl
    rcases (roundLines_facts x d (hd d h1)).2.2.2 l h2 with e | e
    · exact List.mem_cons.mpr (Or.inl e)
    · exact List.mem_cons.mpr (Or.inr (List.mem_flatMap.mpr ⟨d, h1, e⟩))

/-- a round does write lines twice -/
example : sampleDraw.Ok ∧ ∃ outs : List (List Str),
    List.Forall₂ (fun p fs => ∃ n r tags, sampleBinutil.uiiSet sampleBinText n r p = some (fs, tags))
      ([sampleDraw].flatMap (·.params false)) outs :=
  ⟨sampleDraw_ok, (sampleDraw.params false).map fun p => ((sampleBinutil.uiiSet sampleBinText 0 (fun _ => []) p).getD ([], [])).1,
   List.forall₂_map_right_iff.mpr (List.forall₂_same.mpr fun p hp => ⟨0, fun _ => [], [],
    (by decide +kernel : ∀ p ∈ [sampleDraw].flatMap (·.params false),
      sampleBinutil.uiiSet sampleBinText 0 (fun _ => []) p =
        some (((sampleBinutil.uiiSet sampleBinText 0 (fun _ => []) p).getD ([], [])).1, [])) p hp⟩)⟩

/-- With `NoFilter` no line goes to the filter writer. -/
theorem C81_noFilter (x : Binutil) (t : BinText) (n : Nat) (r : Nat → Str) (d : Draw) (p : UIIParam)
    (hp : p ∈ d.params true) (fs tags : List Str) (h : x.uiiSet t n r p = some (fs, tags)) : fs = [] := by
  have hn : p.noFilter = true := by
    unfold Draw.params at hp
    simp only [List.mem_append, List.mem_map, List.mem_cons, List.not_mem_nil, or_false] at hp
    rcases hp with (((⟨_, _, h⟩ | ⟨_, _, h⟩) | ⟨_, _, h⟩) | ⟨_, _, h⟩) | h | h
    · rw [← h]
    · rw [← h]
    · rw [← h]
    · rw [← h]
    · rw [h]
    · rw [h]
  unfold Binutil.uiiSet at h
  simp only [hn, if_true] at h
  repeat' split at h
  all_goals first
    | (cases h; rfl)
    | exact (Option.some.inj (both_some h).1).symm

example : ∃ p ∈ sampleDraw.params true, (sampleBinutil.uiiSet sampleBinText 3 (fun _ => []) p).isSome :=
  ⟨_, List.mem_append_left _ (List.mem_append_left _ (List.mem_append_left _ (List.mem_append_left _
    (List.mem_map.mpr ⟨"000000".toList, by decide, rfl⟩)))), by decide +kernel⟩

/-- `generateNonZeroDigits` returns the first text drawn that does not begin with 0. -/
theorem C81_nonZeroDigits (draws : List Str) (s : Str) :
    nonZeroDigits draws = some s ↔
      ∃ before after, draws = before ++ s :: after ∧ s.head? ≠ some '0' ∧ ∀ b ∈ before, b.head? = some '0' := by
  have hz : ∀ b : Str, hasPrefix b ['0'] = true ↔ b.head? = some '0' := by
    intro b
    cases b with
    | nil => decide
    | cons c b =>
      show ((['0'].isPrefixOf (c :: b)) = true) ↔ _
      constructor
      · intro h
        have := (Bool.and_eq_true _ _ ▸ h : _ ∧ _).1
        rw [List.head?_cons, ← eq_of_beq this]
      · intro h
        cases h
        rfl
  induction draws with
  | nil => simp [nonZeroDigits]
  | cons b l ih =>
    unfold nonZeroDigits
    by_cases hb : hasPrefix b ['0'] = true
    · rw [if_pos hb]
      refine ih.trans ?_
      constructor
      · rintro ⟨be, af, h1, h2, h3⟩
        refine ⟨b :: be, af, by rw [h1]; rfl, h2, ?_⟩
        intro c hc
        rcases List.mem_cons.mp hc with e | e
        · rw [e]; exact (hz b).mp hb
        · exact h3 c e
      · rintro ⟨be, af, h1, h2, h3⟩
        cases be with
        | nil =>
          cases h1
          exact absurd ((hz _).mp hb) h2
        | cons c be =>
          cases h1
          exact ⟨be, af, rfl, h2, fun c hc => h3 c (List.mem_cons_of_mem _ hc)⟩
    · rw [if_neg hb]
      constructor
      · intro h
        cases h
        exact ⟨[], l, rfl, fun h => hb ((hz _).mpr h), by simp⟩
      · rintro ⟨be, af, h1, h2, h3⟩
        cases be with
        | nil => cases h1; rfl
        | cons c be =>
          cases h1
          exact absurd ((hz _).mpr (h3 _ (List.mem_cons_self))) hb

example : nonZeroDigits ["0123".toList, "0999".toList, "1000".toList, "0".toList] = some "1000".toList := by decide

end Gosstrak
