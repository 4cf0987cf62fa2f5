import Verif.Props.Iso
import Verif.Props.Load
import Verif.Proofs.Dataset

namespace Gosstrak

/-! ## C94 -/

/-- A pattern of an EPC scheme becomes a filter, whatever is in its fields, exactly if it has from one field to as many
    as the scheme has. -/
theorem C94_epc (x : Binutil) (sc : Scheme) (fields : List Str) :
    x.encoder sc.typeName fields = none ↔ fields = [] ∨ (if sc.hasSerial then 4 else 3) < fields.length := by
  rw [encoder_scheme]
  cases sc <;> unfold Scheme.hasSerial <;> dsimp only <;>
    (match fields with
      | [] => simp [Binutil.prefixFilter3, Binutil.prefixFilter4]
      | [_] => simp [Binutil.prefixFilter3, Binutil.prefixFilter4]
      | [_, _] => simp [Binutil.prefixFilter3, Binutil.prefixFilter4]
      | [_, _, _] => simp [Binutil.prefixFilter3, Binutil.prefixFilter4]
      | [_, _, _, _] => simp [Binutil.prefixFilter3, Binutil.prefixFilter4]
      | _ :: _ :: _ :: _ :: _ :: _ => simp [Binutil.prefixFilter3, Binutil.prefixFilter4])

theorem isoCD_none (cn : Str) : isoCD cn = none ↔ cn.length ≠ 10 := by
  unfold isoCD; split <;> simp_all

theorem schemeCD_none (cn : Str) : schemeCD cn = none ↔ cn.length ≠ 10 := by
  unfold schemeCD
  split
  · simp_all
  · rw [isoCD_none]; unfold toUpper; simp

theorem leftPad_six (c : Str) (h : ¬ 6 < c.length) : (leftPad 6 c).length = 6 := by
  unfold leftPad zeroPadding
  split
  · simp; omega
  · omega

/-- A container pattern: one to three fields of any text, or four of which the last has at most six characters and the
    first two together four. -/
theorem C94_container_pattern (x : Binutil) (fields : List Str) :
    (∃ s, x.encoder "iso17363".toList fields = some s) ↔
      (1 ≤ fields.length ∧ fields.length ≤ 3) ∨
      ∃ d o e c, fields = [d, o, e, c] ∧ c.length ≤ 6 ∧ d.length + o.length = 4 := by
  have he : x.encoder "iso17363".toList fields = x.prefixFilterISO17363 fields := rfl
  rw [he]
  match fields with
  | [] => simp [Binutil.prefixFilterISO17363]
  | [_] => simp [Binutil.prefixFilterISO17363]
  | [_, _] => simp [Binutil.prefixFilterISO17363]
  | [_, _, _] => simp [Binutil.prefixFilterISO17363]
  | d :: o :: e :: c :: rest =>
    unfold Binutil.prefixFilterISO17363
    dsimp only
    by_cases h6 : 6 < c.length
    · rw [if_pos h6]
      constructor
      · rintro ⟨s, h⟩; cases h
      · rintro (h | ⟨d', o', e', c', h, h1, -⟩)
        · simp at h
        · simp only [List.cons.injEq] at h; obtain ⟨-, -, -, rfl, -⟩ := h; omega
    · rw [if_neg h6]
      cases hcd : isoCD (d ++ o ++ leftPad 6 c) with
      | none =>
        rw [isoCD_none, List.length_append, List.length_append, leftPad_six c h6] at hcd
        constructor
        · rintro ⟨s, h⟩; cases h
        · rintro (h | ⟨d', o', e', c', h, h1, h2⟩)
          · simp at h
          · simp only [List.cons.injEq] at h; obtain ⟨rfl, rfl, -, rfl, -⟩ := h; omega
      | some cd =>
        have hl : ¬ (d ++ o ++ leftPad 6 c).length ≠ 10 := by rw [← isoCD_none, hcd]; simp
        rw [List.length_append, List.length_append, leftPad_six c h6] at hl
        dsimp only
        by_cases hr : rest = []
        · rw [if_pos hr]
          refine ⟨fun _ => Or.inr ⟨d, o, e, c, by rw [hr], by omega, by omega⟩, fun _ => ⟨_, rfl⟩⟩
        · rw [if_neg hr]
          constructor
          · rintro ⟨s, h⟩; cases h
          · rintro (h | ⟨d', o', e', c', h, h1, h2⟩)
            · simp at h
            · simp only [List.cons.injEq] at h; exact absurd h.2.2.2.2 hr

/-- An item pattern: one to four fields of any text. -/
theorem C94_item_pattern (x : Binutil) (fields : List Str) :
    (∃ s, x.encoder "iso17365".toList fields = some s) ↔ 1 ≤ fields.length ∧ fields.length ≤ 4 := by
  have he : x.encoder "iso17365".toList fields = x.prefixFilterISO17365 fields := rfl
  rw [he]
  match fields with
  | [] => simp [Binutil.prefixFilterISO17365]
  | [_] => simp [Binutil.prefixFilterISO17365]
  | [_, _] => simp [Binutil.prefixFilterISO17365]
  | [_, _, _] => simp [Binutil.prefixFilterISO17365]
  | [_, _, _, _] => simp [Binutil.prefixFilterISO17365]
  | _ :: _ :: _ :: _ :: _ :: _ => simp [Binutil.prefixFilterISO17365]

/-- No other kind of pattern becomes a filter. -/
theorem C94_unknown (x : Binutil) (t : Str) (fields : List Str) (h : ∀ sc : Scheme, t ≠ sc.typeName)
    (h3 : t ≠ "iso17363".toList) (h5 : t ≠ "iso17365".toList) : x.encoder t fields = none := by
  have a := h .giai
  have b := h .grai
  have c := h .sgtin
  have d := h .sscc
  change t ≠ "giai-96".toList at a
  change t ≠ "grai-96".toList at b
  change t ≠ "sgtin-96".toList at c
  change t ≠ "sscc-96".toList at d
  unfold Binutil.encoder
  rw [if_neg a, if_neg b, if_neg c, if_neg d, if_neg h3, if_neg h5]

example : sampleBinutil.encoder "sgtin-96".toList ["x".toList, [], "?".toList, "q".toList] ≠ none ∧
    sampleBinutil.encoder "sscc-96".toList ["1".toList, "0614141".toList, "2".toList, "3".toList] = none ∧
    sampleBinutil.encoder "iso17363".toList ["7".toList, "CSQ".toList, "U".toList, "305438".toList] ≠ none ∧
    sampleBinutil.encoder "iso17363".toList ["7B".toList, "CSQ".toList, "U".toList, "305438".toList] = none ∧
    sampleBinutil.encoder "SGTIN-96".toList ["3".toList] = none := by
  decide +kernel

theorem intStr_sixBit (n : Int) : IsSixBit (intStr n) := by
  intro c hc
  unfold intStr at hc
  rcases List.mem_append.mp hc with hc | hc
  · split at hc
    · rw [List.mem_singleton.mp hc]; decide
    · cases hc
  · have := (dec_fits n.natAbs).1 c hc
    have h1 : '0'.toNat ≤ c.toNat := this.1
    have h2 : c.toNat ≤ '9'.toNat := this.2
    have e0 : '0'.toNat = 48 := rfl
    have e9 : '9'.toNat = 57 := rfl
    omega

/-- A container tag is made of any texts of six-bit characters exactly if the serial number has at most six and owner
    code and category together four. -/
theorem C94_container_tag (x : Binutil) (hx : x.Ok) (oc ei csn : Str) (ho : IsSixBit oc) (he : IsSixBit ei)
    (hc : IsSixBit csn) (h1 : oc ≠ []) (h2 : ei ≠ []) (h3 : csn ≠ []) :
    (∃ m, x.makeISO17363 false oc ei csn = some m) ↔ csn.length ≤ 6 ∧ oc.length + ei.length = 4 := by
  unfold Binutil.makeISO17363
  simp only [h1, h2, h3, false_and, if_false]
  by_cases h6 : 6 < csn.length
  · rw [if_pos h6]
    exact ⟨fun ⟨m, h⟩ => (by cases h), fun h => (by omega)⟩
  · rw [if_neg h6]
    cases hcd : schemeCD (oc ++ ei ++ leftPad 6 csn) with
    | none =>
      rw [schemeCD_none, List.length_append, List.length_append, leftPad_six csn h6] at hcd
      exact ⟨fun ⟨m, h⟩ => (by cases h), fun h => (by omega)⟩
    | some cd =>
      have hl : ¬ (oc ++ ei ++ leftPad 6 csn).length ≠ 10 := by rw [← schemeCD_none, hcd]; simp
      rw [List.length_append, List.length_append, leftPad_six csn h6] at hl
      refine ⟨fun _ => by omega, fun _ => ?_⟩
      have hp : IsSixBit (leftPad 6 csn) := by
        unfold leftPad zeroPadding
        split
        · intro c h
          rcases List.mem_append.mp h with h | h
          · rw [(List.mem_replicate.mp h).2]; decide
          · exact hc c h
        · exact hc
      have hall : IsSixBit ("7B".toList ++ oc ++ ei ++ (leftPad 6 csn ++ intStr cd)) :=
        IsSixBit.append (IsSixBit.append (IsSixBit.append (by decide) ho) he) (hp.append (intStr_sixBit cd))
      obtain ⟨id, n, k, q, -⟩ := packISO_spec x hx _ hall.orSpace (by simp)
      refine ⟨(⟨id, [], []⟩, n), ?_⟩
      dsimp only
      rw [← q]
      simp only [sixBits_append, Bool.false_eq_true, if_false]

/-- Its filter and pattern: the same for complete fields; incomplete ones never fail. -/
theorem C94_container_filter (x : Binutil) (oc ei csn : Str) :
    (∃ m, x.makeISO17363 true oc ei csn = some m) ↔
      oc = [] ∨ ei = [] ∨ csn = [] ∨ (csn.length ≤ 6 ∧ oc.length + ei.length = 4) := by
  unfold Binutil.makeISO17363
  by_cases h1 : oc = []
  · simp [h1]
  by_cases h2 : ei = []
  · simp [h1, h2]
  by_cases h3 : csn = []
  · simp [h1, h2, h3]
  simp only [h1, h2, h3, false_and, if_false, false_or]
  by_cases h6 : 6 < csn.length
  · rw [if_pos h6]
    exact ⟨fun ⟨m, h⟩ => (by cases h), fun h => (by omega)⟩
  · rw [if_neg h6]
    cases hcd : schemeCD (oc ++ ei ++ leftPad 6 csn) with
    | none =>
      rw [schemeCD_none, List.length_append, List.length_append, leftPad_six csn h6] at hcd
      exact ⟨fun ⟨m, h⟩ => (by cases h), fun h => (by omega)⟩
    | some cd =>
      have hl : ¬ (oc ++ ei ++ leftPad 6 csn).length ≠ 10 := by rw [← schemeCD_none, hcd]; simp
      rw [List.length_append, List.length_append, leftPad_six csn h6] at hl
      exact ⟨fun _ => by omega, fun _ => ⟨_, rfl⟩⟩

/-- An item tag is made of any texts of six-bit characters with a serial number exactly if issuer and company are
    there; its filter and pattern always. -/
theorem C94_item_tag (x : Binutil) (hx : x.Ok) (di iac cin sn : Str) (hd : IsSixBit di) (hi : IsSixBit iac)
    (hc : IsSixBit cin) (hs : IsSixBit sn) (h0 : sn ≠ []) :
    ((∃ m, x.makeISO17365 false di iac cin sn = some m) ↔ iac ≠ [] ∧ cin ≠ []) ∧
    ∃ m, x.makeISO17365 true di iac cin sn = some m := by
  unfold Binutil.makeISO17365
  by_cases h1 : iac = []
  · simp [h1]
  by_cases h2 : cin = []
  · simp [h1, h2]
  simp only [h1, h2, h0, false_and, if_false, if_true, Bool.false_eq_true, ne_eq, not_false_eq_true, and_self, iff_true]
  refine ⟨?_, _, rfl⟩
  have hall : IsSixBit (di ++ iac ++ cin ++ sn) := ((hd.append hi).append hc).append hs
  obtain ⟨id, n, k, q, -⟩ := packISO_spec x hx _ hall.orSpace (by simp [h0])
  refine ⟨(⟨id, [], []⟩, n), ?_⟩
  rw [← q]
  simp only [sixBits_append]

/-- The filter and the pattern of an EPC scheme are made of any texts. -/
theorem C94_epc_filter (x : Binutil) (sc : Scheme) (fields : List Str) : ∃ m, sc.makeFilter x fields = some m := by
  unfold Scheme.makeFilter
  cases sc <;> dsimp only
  · unfold Binutil.makeSGTIN96 Binutil.make4
    dsimp only
    split
    · exact ⟨_, rfl⟩
    · split
      · exact ⟨_, rfl⟩
      · split <;> exact ⟨_, rfl⟩
  · unfold Binutil.makeSSCC96
    dsimp only
    split
    · exact ⟨_, rfl⟩
    · split <;> exact ⟨_, rfl⟩
  · unfold Binutil.makeGRAI96 Binutil.make4
    dsimp only
    split
    · exact ⟨_, rfl⟩
    · split
      · exact ⟨_, rfl⟩
      · split <;> exact ⟨_, rfl⟩
  · unfold Binutil.makeGIAI96
    dsimp only
    split
    · exact ⟨_, rfl⟩
    · split <;> exact ⟨_, rfl⟩

example : (∃ m, sampleBinutil.makeISO17363 false "CSQ".toList "U".toList "12-".toList = some m) ∧
    sampleBinutil.makeISO17363 false "CSQ".toList "U".toList "1234567".toList = none ∧
    sampleBinutil.makeISO17363 true "CS".toList "U".toList "123".toList = none ∧
    IsSixBit "12-".toList := by
  refine ⟨(C94_container_tag _ sampleBinutil_ok _ _ _ (by decide) (by decide) (by decide) (by decide) (by decide)
    (by decide)).mpr (by decide), ?_⟩
  decide +kernel

end Gosstrak
