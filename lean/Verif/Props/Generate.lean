import Verif.Proofs.Generate

/-! ## The generated texts: C80 -/
namespace Gosstrak

theorem sampleBinText_ok : sampleBinText.Ok where
  hexToBin id := by
    have key : ∀ b : Byte, ([hexDigit (b.toNat / 16), hexDigit (b.toNat % 16)].flatMap
        fun c => leftPad 4 (binStr ((hexVal c).getD 0))) = bitsOf [b] := by decide +kernel
    have hc : ∀ (b : Byte) (l : List Byte), bitsOf (b :: l) = bitsOf [b] ++ bitsOf l := by
      intro b l
      apply List.ext_getElem?
      intro n
      rw [bitsOf_getElem?, List.getElem?_append, bitsOf_getElem?, bitsOf_getElem?, length_bitsOf]
      simp only [List.length_cons, List.length_nil]
      by_cases h8 : n < 8
      · rw [if_pos (by omega : n < 8 * (l.length + 1)), if_pos (by omega : n < 8 * (0 + 1)),
          if_pos (by omega : n < 8 * (0 + 1)), idBit_cons, idBit_cons, if_pos h8, if_pos h8]
      · rw [if_neg (by omega : ¬ n < 8 * (0 + 1)), idBit_cons, if_neg h8]
        by_cases hl : n < 8 * (l.length + 1)
        · rw [if_pos hl, if_pos (by omega : n - 8 * (0 + 1) < 8 * l.length)]
        · rw [if_neg hl, if_neg (by omega : ¬ n - 8 * (0 + 1) < 8 * l.length)]
    induction id with
    | nil => rfl
    | cons b l ih =>
      rw [hc, ← ih, ← key b]
      show List.flatMap _ (List.flatMap _ (b :: l)) = _
      rw [List.flatMap_cons, List.flatMap_append]
      rfl

/-! ### C80 -/

/-- `MakeEPC` for a tag with complete fields: 96 bits and the PC 3000; read back they are a tag with the
    identity of these fields. Which arguments count depends on the scheme, its name may be written in
    any letter case. -/
theorem C80_epc_tag (x : Binutil) (hx : x.Ok) (t : BinText) (ht : t.Ok) (sc : Scheme) (cs : Str)
    (hcs : sc.Named cs) (fv cp ir ext ser iar at' : Str)
    (h : sc.WellFormed (sc.allFields fv cp (sc.second ir ext iar at') ser)) :
    ∃ bs id, x.makeEPC t false cs fv cp ir ext ser iar at' = (bs, "3000".toList) ∧
      printID bs "3000".toList = "3000,".toList ++ bs ∧ bs.length = 96 ∧ bs = bitsOf id ∧
      ReadsAs bs "3000".toList 48#8 0#8 id ∧
      translate [48#8, 0#8] id =
        some (sc.urn (sc.allFields fv cp (sc.second ir ext iar at') ser).tail, false) := by
  obtain ⟨id, h1, h2, h3⟩ := C39_round_trip x hx sc fv cp _ ser h 48#8 0#8 (by decide)
  have hl : (bitsOf id).length = 96 := by rw [length_bitsOf, h2]
  refine ⟨bitsOf id, id, ?_, ?_, hl, rfl, ?_, h3⟩
  · unfold Binutil.makeEPC
    rw [makeAny_tag x sc cs hcs, h1, ← ht.hexToBin]
    rfl
  · unfold printID
    rw [if_neg (by omega)]
    rfl
  · have := reads_as t ht 48#8 0#8 id
    rwa [ht.hexToBin] at this

example : Scheme.sgtin.Named "sGtin-96".toList ∧
    Scheme.sgtin.WellFormed ["3".toList, "0614141".toList, "812345".toList, "6789".toList] ∧
    sampleBinutil.makeEPC sampleBinText false "sGtin-96".toList "3".toList "0614141".toList
      "812345".toList "99".toList "6789".toList "98".toList "97".toList =
      ("001100000111010000100101011110111111011100011001010011100100000000000000000000000001101010000101".toList,
       "3000".toList) := by
  refine ⟨by decide +kernel, ?_, by decide +kernel⟩
  unfold Scheme.WellFormed Scheme.hasSerial
  decide +kernel

/-- Asked for a filter, `MakeEPC` returns the filter string to which the pattern of the given fields is
    encoded, and this pattern. The fields not given are empty. -/
theorem C80_epc_filter (x : Binutil) (t : BinText) (sc : Scheme) (cs : Str) (hcs : sc.Named cs)
    (fv cp ir ext ser iar at' : Str) (fields rest : List Str) (hf : fields ≠ [] ∧ ∀ f ∈ fields, f ≠ [])
    (hr : ∀ f ∈ rest, f = [])
    (h : [fv, cp, sc.second ir ext iar at', if sc.hasSerial then ser else []] = fields ++ rest) :
    ∃ s, x.encoder sc.typeName fields = some s ∧
      x.makeEPC t true cs fv cp ir ext ser iar at' = (s, sc.patternText fields) := by
  have hlen : fields.length ≤ if sc.hasSerial then 4 else 3 := by
    have h4 : 4 = fields.length + rest.length := by
      have := congrArg List.length h
      simpa using this
    split
    · omega
    · rename_i hns
      rw [if_neg hns] at h
      apply Classical.byContradiction
      intro hl
      have hr0 : rest = [] := List.length_eq_zero_iff.mp (by omega)
      rw [hr0, List.append_nil] at h
      exact hf.2 [] (by rw [← h]; simp) rfl
  obtain ⟨s, h1, h2⟩ := C68_epc x sc fields hf.1 hlen hf.2
  refine ⟨s, h1, ?_⟩
  unfold Binutil.makeEPC
  rw [makeAny_filter x sc cs hcs]
  have hd : ∀ (r : List Str) (i : Nat), (∀ f ∈ r, f = []) → r.getD i [] = [] := by
    intro r i hr
    rw [List.getD_eq_getElem?_getD]
    cases hg : r[i]? with
    | none => rfl
    | some v => exact hr v (List.mem_of_getElem? hg)
  have hget : ∀ i, [fv, cp, sc.second ir ext iar at', if sc.hasSerial then ser else []].getD i [] =
      fields.getD i [] := by
    intro i
    rw [h, List.getD_eq_getElem?_getD, List.getD_eq_getElem?_getD, List.getElem?_append]
    split
    · rfl
    · rename_i hi
      rw [List.getElem?_eq_none (by omega : fields.length ≤ i), ← List.getD_eq_getElem?_getD, hd _ _ hr]
      rfl
  have e0 := hget 0
  have e1 := hget 1
  have e2 := hget 2
  have e3 := hget 3
  have : sc.makeFilter x [fv, cp, sc.second ir ext iar at', ser] = sc.makeFilter x fields := by
    cases sc <;>
    · unfold Scheme.makeFilter
      dsimp only
      simp only [List.getD_cons_zero, List.getD_cons_succ] at e0 e1 e2 e3 ⊢
      rw [← e0, ← e1, ← e2]
      try (rw [← e3, if_pos (by trivial)])
  rw [this, h2]
  rfl

example : sampleBinutil.makeEPC sampleBinText true "GRAI-96".toList "3".toList "061414112".toList
    [] [] [] [] "123".toList =
    ("0011001101101100001110101001000110101110000000000001111011".toList,
     "urn:epc:pat:grai-96:3.061414112.123".toList) := by decide +kernel

/-- The errors are dropped: the bits are empty, and nothing is printed, exactly for an unknown scheme
    name and when the scheme's function fails; otherwise there are 96 bits. The PC is there in any
    case. -/
theorem C80_epc_error (x : Binutil) (t : BinText) (ht : t.Ok) (cs fv cp ir ext ser iar at' : Str) :
    ∃ bs, x.makeEPC t false cs fv cp ir ext ser iar at' = (bs, "3000".toList) ∧
      (bs = [] ∨ bs.length = 96) ∧ (printID bs "3000".toList = [] ↔ bs = []) ∧
      (bs = [] ↔ ∀ sc : Scheme, sc.Named cs → sc.make x fv cp (sc.second ir ext iar at') ser = none) := by
  refine ⟨_, rfl, ?_⟩
  have hprint : ∀ bs, printID bs "3000".toList = [] ↔ bs = [] := by
    intro bs
    unfold printID
    split
    · rename_i h; simp [List.length_eq_zero_iff.mp h]
    · rename_i h
      simp only [List.append_assoc, List.append_eq_nil_iff]
      constructor
      · rintro ⟨h, _⟩; cases h
      · rintro rfl; exact absurd rfl h
  show ((t.hexToBin (hexEncode (x.makeAny false cs fv cp ir ext ser iar at').id)) = [] ∨ _) ∧ _
  rw [ht.hexToBin]
  by_cases hn : ∃ sc : Scheme, sc.Named cs
  · obtain ⟨sc, hsc⟩ := hn
    rw [makeAny_tag x sc cs hsc]
    cases hm : sc.make x fv cp (sc.second ir ext iar at') ser with
    | none =>
      refine ⟨Or.inl rfl, hprint _, fun _ sc' hsc' => ?_, fun _ => rfl⟩
      rw [← named_unique sc sc' cs hsc hsc']; exact hm
    | some m =>
      have h12 := (C41_length x sc _ _ _ _ m hm).1
      have hl : (bitsOf m.id).length = 96 := by rw [length_bitsOf, h12]
      refine ⟨Or.inr hl, hprint _, fun h => ?_, fun h => ?_⟩
      · rw [show (some m).getD ⟨[], [], []⟩ = m from rfl] at h
        rw [h] at hl; cases hl
      · have := h sc hsc
        rw [hm] at this; cases this
  · rw [makeAny_unknown x false cs (fun sc h => hn ⟨sc, h⟩)]
    exact ⟨Or.inl rfl, hprint _, fun _ sc h => absurd ⟨sc, h⟩ hn, fun _ => rfl⟩

example : sampleBinutil.makeEPC sampleBinText false "sgtin-198".toList "3".toList "0614141".toList
      "812345".toList [] "6789".toList [] [] = ([], "3000".toList) ∧
    sampleBinutil.makeEPC sampleBinText false "sgtin-96".toList "3".toList "0614141".toList
      "99999999".toList [] "6789".toList [] [] = ([], "3000".toList) := by decide +kernel

/-- `MakeISO` for a container: 80 bits and the PC 29a9, which read back are a tag with the identity of
    these fields. -/
theorem C80_iso17363_tag (x : Binutil) (hx : x.Ok) (t : BinText) (ht : t.Ok) (oc ei csn di iac cin sn : Str)
    (ho : IsCode oc) (ho3 : oc.length = 3) (he : IsCode ei) (he1 : ei.length = 1) (hs : IsDigits csn)
    (hs0 : csn ≠ []) (hs6 : csn.length ≤ 6) :
    ∃ bs id, x.makeISO t false "17363".toList oc ei csn di iac cin sn = some (bs, "29a9".toList) ∧
      printID bs "29a9".toList = "29a9,".toList ++ bs ∧ bs.length = 80 ∧
      ReadsAs bs "29a9".toList 41#8 169#8 id ∧
      translate [41#8, 169#8] id = some ("urn:epc:id:iso17363:".toList ++ ("7B".toList ++ oc ++ ei ++
        sixDigits csn ++ [Char.ofNat (48 + checkDigit (oc ++ ei ++ sixDigits csn))]), false) := by
  obtain ⟨id, pc, h1, h2, h3, h4⟩ := C67_iso17363 x hx oc ei csn ho ho3 he he1 hs hs0 hs6
  have hpc : makeISOPC 80 "A9".toList = some [41#8, 169#8] := by decide +kernel
  rw [hpc] at h3
  cases h3
  have hl : (bitsOf id).length = 80 := by rw [length_bitsOf, h2]
  refine ⟨bitsOf id, id, ?_, ?_, hl, ?_, h4⟩
  · unfold Binutil.makeISO isoTexts
    rw [if_pos rfl, h1]
    dsimp only [Option.getD_some]
    rw [hpc]
    show some (t.hexToBin (hexEncode id), _) = _
    rw [ht.hexToBin]
    rfl
  · unfold printID
    rw [if_neg (by omega)]
    rfl
  · have := reads_as t ht 41#8 169#8 id
    rwa [ht.hexToBin] at this

example : sampleBinutil.makeISO sampleBinText false "17363".toList "CSQ".toList "U".toList "305438".toList
    [] [] [] [] = some
      ("11011100001000001101001101000101010111001111000011010111010011001111100011001110".toList,
       "29a9".toList) := by decide +kernel

/-- `MakeISO` for a transport unit: whole words of bits, and a PC with their number, which read back are
    a tag with the identity of these fields. -/
theorem C80_iso17365_tag (x : Binutil) (hx : x.Ok) (t : BinText) (ht : t.Ok) (oc ei csn di iac cin sn : Str)
    (hd : IsSixBit di) (hi : IsSixBit iac) (hi0 : iac ≠ []) (hc : IsSixBit cin) (hc0 : cin ≠ [])
    (hs : IsSixBit sn) (hs0 : sn ≠ []) (hlen : di.length + iac.length + cin.length + sn.length ≤ 82) :
    ∃ bs pc p0 id, x.makeISO t false "17365".toList oc ei csn di iac cin sn = some (bs, pc) ∧
      printID bs pc = pc ++ ",".toList ++ bs ∧ bs.length % 16 = 0 ∧ p0.toNat = bs.length / 16 * 8 + 1 ∧
      ReadsAs bs pc p0 162#8 id ∧
      translate [p0, 162#8] id =
        some ("urn:epc:id:iso17365:".toList ++ (di ++ iac ++ cin ++ sn), false) := by
  obtain ⟨id, n, pc, h1, h2, h3, h4⟩ := C67_iso17365 x hx di iac cin sn hd hi hi0 hc hc0 hs hs0 hlen
  have hsix := ((hd.append hi).append hc).append hs
  have hm : x.makeISO17365 false di iac cin sn = Binutil.packISO (x.sixBits (di ++ iac ++ cin ++ sn)) := by
    unfold Binutil.makeISO17365
    simp only [hi0, hc0, hs0, false_and, if_false, sixBits_append]
    rfl
  have hne : di ++ iac ++ cin ++ sn ≠ [] := by simp [hs0]
  obtain ⟨id', n', k, q1, q2, q3, q4, q5, q6, q7⟩ := packISO_spec x hx _ hsix.orSpace hne
  rw [← hm, h1] at q1
  cases q1
  have htl : (di ++ iac ++ cin ++ sn).length = di.length + iac.length + cin.length + sn.length := by
    simp only [List.length_append]
  have hpos : 0 < (di ++ iac ++ cin ++ sn).length := List.length_pos_iff.mpr hne
  obtain ⟨p0, p1, e1, e2, e3, _⟩ := C47_pc n "A2".toList (by omega)
  have hp1 : p1 = 162#8 := by
    apply BitVec.eq_of_toNat_eq
    rw [e3]; decide
  subst hp1
  rw [e1] at h3
  cases h3
  have hl : (bitsOf id).length = n := by rw [length_bitsOf, h2]
  refine ⟨bitsOf id, hexEncode [p0, 162#8], p0, id, ?_, ?_, by omega, by rw [hl]; exact e2, ?_, h4⟩
  · unfold Binutil.makeISO isoTexts
    rw [if_neg (by decide), if_pos rfl, h1]
    dsimp only [Option.getD_some]
    rw [e1]
    show some (t.hexToBin (hexEncode id), _) = _
    rw [ht.hexToBin]
  · unfold printID
    rw [if_neg (by omega)]
    rfl
  · have := reads_as t ht p0 162#8 id
    rwa [ht.hexToBin] at this

example : (sampleBinutil.makeISO sampleBinText false "17365".toList [] [] [] "25S".toList "UN".toList
    "043325711".toList "MH8031200000000001".toList).map Prod.snd = some "61a2".toList := by decide +kernel

/-- Asked for a filter, `MakeISO` returns the filter string to which the pattern of the given fields is
    encoded, and this pattern (for containers with at most three fields, C68). -/
theorem C80_iso_filter (x : Binutil) (t : BinText) (oc ei csn di iac cin sn : Str) (ho : oc ≠ [])
    (he : ei ≠ []) (hi : iac ≠ []) (hc : cin ≠ []) (hs : sn ≠ []) :
    let p63 := fun fields : List Str => "urn:epc:pat:iso17363:".toList ++ ['.'].intercalate fields
    let p65 := fun fields : List Str => "urn:epc:pat:iso17365:".toList ++ ['.'].intercalate fields
    (∃ s, x.encoder "iso17363".toList ["7B".toList] = some s ∧
      x.makeISO t true "17363".toList [] [] [] di iac cin sn = some (s, p63 ["7B".toList])) ∧
    (∃ s, x.encoder "iso17363".toList ["7B".toList, oc] = some s ∧
      x.makeISO t true "17363".toList oc [] [] di iac cin sn = some (s, p63 ["7B".toList, oc])) ∧
    (∃ s, x.encoder "iso17363".toList ["7B".toList, oc, ei] = some s ∧
      x.makeISO t true "17363".toList oc ei [] di iac cin sn = some (s, p63 ["7B".toList, oc, ei])) ∧
    (∃ s, x.encoder "iso17365".toList [di] = some s ∧
      x.makeISO t true "17365".toList oc ei csn di [] [] [] = some (s, p65 [di])) ∧
    (∃ s, x.encoder "iso17365".toList [di, iac] = some s ∧
      x.makeISO t true "17365".toList oc ei csn di iac [] [] = some (s, p65 [di, iac])) ∧
    (∃ s, x.encoder "iso17365".toList [di, iac, cin] = some s ∧
      x.makeISO t true "17365".toList oc ei csn di iac cin [] = some (s, p65 [di, iac, cin])) ∧
    (∃ s, x.encoder "iso17365".toList [di, iac, cin, sn] = some s ∧
      x.makeISO t true "17365".toList oc ei csn di iac cin sn = some (s, p65 [di, iac, cin, sn])) := by
  intro p63 p65
  have k9 : makeISOPC 0 "A9".toList = some [1#8, 169#8] := by decide +kernel
  have k2 : makeISOPC 0 "A2".toList = some [1#8, 162#8] := by decide +kernel
  have t63 : ∀ (oc ei csn s pat : Str), x.makeISO17363 true oc ei csn = some (⟨[], s, pat⟩, 0) →
      x.makeISO t true "17363".toList oc ei csn di iac cin sn = some (s, pat) := by
    intro oc ei csn s pat h
    unfold Binutil.makeISO isoTexts
    rw [if_pos rfl, h]
    dsimp only [Option.getD_some]
    rw [k9]
    rfl
  have t65 : ∀ (di iac cin sn s pat : Str), x.makeISO17365 true di iac cin sn = some (⟨[], s, pat⟩, 0) →
      x.makeISO t true "17365".toList oc ei csn di iac cin sn = some (s, pat) := by
    intro di iac cin sn s pat h
    unfold Binutil.makeISO isoTexts
    rw [if_neg (by decide), if_pos rfl, h]
    dsimp only [Option.getD_some]
    rw [k2]
    rfl
  obtain ⟨⟨s1, a1, b1⟩, ⟨s2, a2, b2⟩, ⟨s3, a3, b3⟩⟩ := C68_iso17363 x oc ei ho he
  obtain ⟨⟨s4, a4, b4⟩, ⟨s5, a5, b5⟩, ⟨s6, a6, b6⟩, ⟨s7, a7, b7⟩⟩ := C68_iso17365 x di iac cin sn hi hc hs
  exact ⟨⟨s1, a1, t63 _ _ _ _ _ b1⟩, ⟨s2, a2, t63 _ _ _ _ _ b2⟩, ⟨s3, a3, t63 _ _ _ _ _ b3⟩,
    ⟨s4, a4, t65 _ _ _ _ _ _ b4⟩, ⟨s5, a5, t65 _ _ _ _ _ _ b5⟩, ⟨s6, a6, t65 _ _ _ _ _ _ b6⟩,
    ⟨s7, a7, t65 _ _ _ _ _ _ b7⟩⟩

example : sampleBinutil.makeISO sampleBinText true "17363".toList "CSQ".toList [] [] [] [] [] [] =
    some ("110111000010000011010011010001".toList, "urn:epc:pat:iso17363:7B.CSQ".toList) := by
  decide +kernel

/-- What `MakeISO` does with errors: the bits are empty and nothing is printed, but there is a PC; asked
    for a filter, both texts are empty, as they are for an unknown standard. -/
theorem C80_iso_error (x : Binutil) (t : BinText) (ht : t.Ok) (oc ei csn di iac cin sn : Str) :
    (x.makeISO17363 false oc ei csn = none →
      x.makeISO t false "17363".toList oc ei csn di iac cin sn = some ([], "01a9".toList)) ∧
    (x.makeISO17365 false di iac cin sn = none →
      x.makeISO t false "17365".toList oc ei csn di iac cin sn = some ([], "01a2".toList)) ∧
    (x.makeISO17363 true oc ei csn = none →
      x.makeISO t true "17363".toList oc ei csn di iac cin sn = some ([], [])) ∧
    (∀ std pf, std ≠ "17363".toList → std ≠ "17365".toList →
      x.makeISO t pf std oc ei csn di iac cin sn = some ([], [])) := by
  have hz : t.hexToBin (hexEncode []) = [] := ht.hexToBin []
  have k9 : makeISOPC 0 "A9".toList = some [1#8, 169#8] := by decide +kernel
  have k2 : makeISOPC 0 "A2".toList = some [1#8, 162#8] := by decide +kernel
  refine ⟨fun h => ?_, fun h => ?_, fun h => ?_, fun std pf h1 h2 => ?_⟩
  · unfold Binutil.makeISO isoTexts
    rw [if_pos rfl, h]
    dsimp only [Option.getD_none]
    rw [k9]
    show some (t.hexToBin (hexEncode []), _) = _
    rw [hz]
    rfl
  · unfold Binutil.makeISO isoTexts
    rw [if_neg (by decide), if_pos rfl, h]
    dsimp only [Option.getD_none]
    rw [k2]
    show some (t.hexToBin (hexEncode []), _) = _
    rw [hz]
    rfl
  · unfold Binutil.makeISO isoTexts
    rw [if_pos rfl, h]
    dsimp only [Option.getD_none]
    rw [k9]
    rfl
  · unfold Binutil.makeISO
    rw [if_neg h1, if_neg h2, hz]
    cases pf <;> rfl

example : sampleBinutil.makeISO17363 false "CSQ".toList "U".toList "1234567".toList = none ∧
    sampleBinutil.makeISO17363 true "CSQ".toList "U".toList "1234567".toList = none ∧
    sampleBinutil.makeISO17365 false "25S".toList "UN".toList [] "1".toList = none := by decide +kernel

/-- `MakeISO` panics for a transport unit of 83 characters and more, unless the number of words happens
    to have 13, 21, … binary digits. -/
theorem C80_iso_crash (x : Binutil) (hx : x.Ok) (t : BinText) (oc ei csn di iac cin sn : Str)
    (hd : IsSixBit di) (hi : IsSixBit iac) (hi0 : iac ≠ []) (hc : IsSixBit cin) (hc0 : cin ≠ [])
    (hs : IsSixBit sn) (hs0 : sn ≠ []) :
    let words := (6 * (di.length + iac.length + cin.length + sn.length) + 15) / 16
    x.makeISO t false "17365".toList oc ei csn di iac cin sn = none ↔
      32 ≤ words ∧ (Nat.log2 words + 4) % 8 ≠ 0 := by
  intro words
  have hsix := ((hd.append hi).append hc).append hs
  have hm : x.makeISO17365 false di iac cin sn = Binutil.packISO (x.sixBits (di ++ iac ++ cin ++ sn)) := by
    unfold Binutil.makeISO17365
    simp only [hi0, hc0, hs0, false_and, if_false, sixBits_append]
    rfl
  obtain ⟨id, n, k, q1, q2, q3, q4, q5, q6, q7⟩ := packISO_spec x hx _ hsix.orSpace (by simp [hs0])
  have htl : (di ++ iac ++ cin ++ sn).length = di.length + iac.length + cin.length + sn.length := by
    simp only [List.length_append]
  have hw : n / 16 = words := by simp only [words]; rw [htl] at q4 q5; omega
  have hcr := C47_crash_iff n "A2".toList
  rw [hw] at hcr
  have hn : 512 ≤ n ↔ 32 ≤ words := by omega
  rw [hn] at hcr
  rw [← hcr]
  unfold Binutil.makeISO isoTexts
  rw [if_neg (by decide), if_pos rfl, hm, q1]
  dsimp only [Option.getD_some]
  cases makeISOPC n "A2".toList <;> simp

example : (6 * (3 + 1 + 7 + 72) + 15) / 16 = 32 ∧ (Nat.log2 32 + 4) % 8 ≠ 0 := by decide +kernel

/-- `gobtags` reads any text of bits in groups of eight, and any other text as the empty ID without an
    error. -/
theorem C80_read (s : Str) : (makeByteID s).2 = false ∧
    (IsBitStr s → s.length % 8 = 0 → bitsOf (makeByteID s).1 = s) ∧
    (¬ (IsBitStr s ∧ s.length % 8 = 0) → (makeByteID s).1 = []) := by
  refine ⟨?_, ?_, ?_⟩
  · unfold makeByteID; split <;> rfl
  · intro hb h8
    by_cases h0 : s = []
    · subst h0; rfl
    · have : 0 < s.length := List.length_pos_iff.mpr h0
      obtain ⟨id, h1, h2, h3⟩ := parseBin_bits (n := s.length / 8) (by omega) (by omega) hb
      unfold makeByteID
      rw [h1]
      apply List.ext_getElem?
      intro j
      rw [bitsOf_getElem?, h3]
      by_cases hj : j < s.length
      · rw [if_pos (by dsimp only; omega), List.getElem?_eq_getElem hj]
        rcases hb _ (List.getElem_mem hj) with h | h <;> rw [h] <;> simp
      · rw [if_neg (by dsimp only; omega), List.getElem?_eq_none (by omega)]
  · intro h8
    unfold makeByteID
    cases hp : parseBin s with
    | none => rfl
    | some p =>
      have hl := parseBin_length s p hp
      refine absurd ⟨?_, by omega⟩ h8
      unfold parseBin at hp
      split at hp
      · cases hp
      · exact parseBinAux_isBitStr _ s p (Nat.le_refl _) hp

example : makeByteID "0000000011111111".toList = ([0#8, 255#8], false) ∧
    makeByteID "00000000111111".toList = ([], false) ∧ makeByteID "0000000z".toList = ([], false) ∧
    makeUint16PC "3000".toList = (12288, false) ∧ makeUint16PC "30000".toList = (0, true) := by
  decide +kernel

/-- A PC is read as the hexadecimal number it is, with an error when it is none or does not fit 16 bits. -/
theorem C80_pc (s : Str) (n : Nat) (e : Bool) : makeUint16PC s = (n, e) ↔
    (e = false ∧ s ≠ [] ∧ HexNumeral s n ∧ n < 65536) ∨
    (e = true ∧ n = 0 ∧ ∀ m, s ≠ [] → HexNumeral s m → 65536 ≤ m) := by
  have key : ∀ m, HexNumeral s m ↔ s.foldl hexStep (some 0) = some m := fun m => (foldl_hexStep s 0 m).symm
  simp only [key]
  unfold makeUint16PC parseHex16
  by_cases h0 : s = []
  · subst h0
    simp [eq_comm, and_comm]
  · have hne : s.isEmpty = false := by cases s <;> simp_all
    rw [hne]
    simp only [Bool.false_eq_true, if_false, ne_eq, h0, not_false_eq_true, true_and, forall_const]
    cases hf : s.foldl hexStep (some 0) with
    | none => simp [eq_comm, and_comm]
    | some m =>
      by_cases hm : m < 65536
      · simp only [hm, if_true]
        simp only [Prod.mk.injEq, Option.some.injEq, forall_eq']
        constructor
        · rintro ⟨rfl, rfl⟩; exact Or.inl ⟨rfl, rfl, hm⟩
        · rintro (⟨rfl, rfl, _⟩ | ⟨_, _, h⟩)
          · exact ⟨rfl, rfl⟩
          · omega
      · simp only [hm, if_false]
        simp only [Prod.mk.injEq, Option.some.injEq, forall_eq']
        constructor
        · rintro ⟨rfl, rfl⟩; exact Or.inr ⟨rfl, rfl, by omega⟩
        · rintro (⟨_, rfl, h⟩ | ⟨rfl, rfl, h⟩)
          · omega
          · exact ⟨rfl, rfl⟩

example : HexNumeral "29a9".toList 10665 ∧ HexNumeral "29A9".toList 10665 :=
  ⟨⟨[2, 9, 10, 9], by decide, rfl⟩, ⟨[2, 9, 10, 9], by decide, rfl⟩⟩

/-- Both print functions print nothing exactly for empty bits; otherwise the two texts can be told from
    what `PrintID` prints when the first contains no comma, as the PCs and patterns of tags do not. -/
theorem C80_print (t : BinText) (bs opt : Str) :
    (printID bs opt = [] ↔ bs = []) ∧ (t.printGoBytes bs opt = [] ↔ bs = []) ∧
    (∀ bs' opt', ',' ∉ opt → ',' ∉ opt' → bs ≠ [] → bs' ≠ [] → printID bs opt = printID bs' opt' →
      bs = bs' ∧ opt = opt') ∧
    (bs ≠ [] → t.printGoBytes bs opt = "[]byte{".toList ++ t.hexToDec opt ++ "},[]byte{".toList ++
      t.binToDec bs ++ "}".toList) := by
  have hz : ∀ bs : Str, bs.length = 0 ↔ bs = [] := fun bs => List.length_eq_zero_iff
  refine ⟨?_, ?_, ?_, ?_⟩
  · unfold printID
    by_cases h : bs = []
    · simp [h]
    · rw [if_neg (by rwa [hz])]
      simp [h]
  · unfold BinText.printGoBytes
    by_cases h : bs = []
    · simp [h]
    · rw [if_neg (by rwa [hz])]
      simp [h]
  · intro bs' opt' h1 h2 h3 h4 h
    unfold printID at h
    rw [if_neg (by rwa [hz]), if_neg (by rwa [hz])] at h
    have key : ∀ (a b c d : Str), ',' ∉ a → ',' ∉ c → a ++ [','] ++ b = c ++ [','] ++ d → b = d ∧ a = c := by
      intro a
      induction a with
      | nil =>
        intro b c d _ hc h
        cases c with
        | nil => exact ⟨(List.cons.inj h).2, rfl⟩
        | cons x c =>
          have := (List.cons.inj h).1
          exact absurd (by rw [this]; exact List.mem_cons_self) hc
      | cons y a ih =>
        intro b c d ha hc h
        cases c with
        | nil =>
          have := (List.cons.inj h).1
          exact absurd (by rw [this]; exact List.mem_cons_self) ha
        | cons x c =>
          obtain ⟨e1, e2⟩ := List.cons.inj h
          obtain ⟨e3, e4⟩ := ih b c d (fun hm => ha (List.mem_cons_of_mem _ hm))
            (fun hm => hc (List.mem_cons_of_mem _ hm)) e2
          exact ⟨e3, by rw [e1, e4]⟩
    exact key opt bs opt' bs' h1 h2 h
  · intro h
    unfold BinText.printGoBytes
    rw [if_neg (by rwa [hz])]

example : ',' ∉ "urn:epc:pat:sgtin-96:3.0614141".toList ∧
    printID "0011".toList "3000".toList = "3000,0011".toList := by decide

/-- `Sixenc2bin` is the six-bit encoding, character by character. -/
theorem C80_sixenc (x : Binutil) (s : Str) : x.sixenc2bin [] s = x.sixBits s := by
  have key : ∀ bs, x.sixenc2bin bs s = bs ++ x.sixBits s := by
    induction s with
    | nil => intro bs; simp [Binutil.sixenc2bin, Binutil.sixBits]
    | cons c s ih =>
      intro bs
      rw [Binutil.sixenc2bin, ih, sixBits_cons, List.append_assoc]
  rw [key, List.nil_append]

/-- `CheckIfStringInSlice` is membership. -/
theorem C80_in_slice (a : Str) (l : List Str) : checkIfStringInSlice a l = true ↔ a ∈ l := by
  induction l with
  | nil => simp [checkIfStringInSlice]
  | cons b l ih =>
    unfold checkIfStringInSlice
    split
    · rename_i h; simp [h]
    · rename_i h
      rw [ih, List.mem_cons]
      exact ⟨Or.inr, fun h' => h'.resolve_left fun e => h e.symm⟩

end Gosstrak
