import Verif.Proofs.Encode
import Verif.Props.Translate
import Verif.Props.Filter

namespace Gosstrak

theorem sgtin_isTable : IsTable sgtinTable 44 (· + 1) := by unfold IsTable; decide
theorem sscc_isTable : IsTable ssccTable 58 (· + 5) := by unfold IsTable; decide
theorem grai_isTable : IsTable graiTable 44 (fun p => p) := by unfold IsTable; decide
theorem giai_isTable : IsTable giaiTable 82 (· + 13) := by unfold IsTable; decide

/-- the table of a scheme in the code -/
def Scheme.table : Scheme → List Row
  | .sgtin => sgtinTable
  | .sscc => ssccTable
  | .grai => graiTable
  | .giai => giaiTable

/-- digits of the second field -/
def Scheme.digits : Scheme → Nat → Nat
  | .sgtin => (· + 1)
  | .sscc => (· + 5)
  | .grai => fun p => p
  | .giai => (· + 13)

theorem Scheme.isTable (sc : Scheme) : IsTable sc.table sc.width sc.digits := by
  cases sc
  · exact sgtin_isTable
  · exact sscc_isTable
  · exact grai_isTable
  · exact giai_isTable

/-- the header as text in the code -/
def Scheme.headerText : Scheme → Str
  | .sgtin => "00110000".toList
  | .sscc => "00110001".toList
  | .grai => "00110011".toList
  | .giai => "00110100".toList

theorem Scheme.headerText_padded (sc : Scheme) : BinPadded 8 sc.header.toNat sc.headerText := by
  cases sc <;> decide

theorem Scheme.width_bounds (sc : Scheme) : 44 ≤ sc.width ∧ sc.width ≤ 82 := by cases sc <;> decide

theorem field_head (id : List Byte) (h : Byte) (hl : 0 < id.length) :
    field id 0 8 = h.toNat ↔ id.head? = some h := by
  match id, hl with
  | b :: l, _ =>
    have := field_byte (b :: l) 0 0 8 (by omega)
    simp only [Nat.mul_zero, Nat.add_zero] at this
    rw [this]
    have hb := b.isLt
    have e : byteAt (b :: l) 0 = b := rfl
    rw [e]
    simp only [List.head?_cons, Option.some.injEq]
    constructor
    · intro h'
      apply BitVec.eq_of_toNat_eq
      omega
    · rintro rfl
      omega

/-- the encoder on a scheme's patterns -/
theorem encoder_scheme (x : Binutil) (sc : Scheme) (fields : List Str) :
    x.encoder sc.typeName fields = match sc with
      | .sgtin => x.prefixFilter4 "00110000".toList sgtinTable fields
      | .sscc => x.prefixFilter3 "00110001".toList ssccTable fields
      | .grai => x.prefixFilter4 "00110011".toList graiTable fields
      | .giai => x.prefixFilter3 "00110100".toList giaiTable fields := by
  cases sc <;> rfl

/-- the pieces of the filter string -/
theorem encoder_pieces (x : Binutil) (sc : Scheme) (fv cp ref ser : Str) :
    x.encoder sc.typeName [fv] = some (sc.headerText ++ x.getFilter fv) ∧
    x.encoder sc.typeName [fv, cp] = some (sc.headerText ++ x.getFilter fv ++
      partitionBits (rowFor sc.table cp.length) ++ x.getCompanyPrefix cp (rowFor sc.table cp.length)) ∧
    x.encoder sc.typeName [fv, cp, ref] = some (sc.headerText ++ x.getFilter fv ++
      partitionBits (rowFor sc.table cp.length) ++ x.getCompanyPrefix cp (rowFor sc.table cp.length) ++
      x.getRef ref (rowFor sc.table cp.length)) ∧
    (sc.hasSerial → x.encoder sc.typeName [fv, cp, ref, ser] = some (sc.headerText ++ x.getFilter fv ++
      partitionBits (rowFor sc.table cp.length) ++ x.getCompanyPrefix cp (rowFor sc.table cp.length) ++
      x.getRef ref (rowFor sc.table cp.length) ++ x.getSerial ser)) := by
  cases sc <;> exact ⟨rfl, rfl, rfl, fun h => by first | exact h.elim | rfl⟩

theorem fits_of_canonical (sc : Scheme) (cp ref : Str) (hcp : IsCompanyPrefix cp)
    (h : sc.Canonical cp ref) : Fits (sc.width - companyBits (partitionFor cp)) ref := by
  have h7 := (company_bound cp hcp).2.2.2
  have hne : ∀ n, ref.length = n → 0 < n → ref ≠ [] := by
    intro n h1 h2 h3; rw [h3] at h1; simp at h1; omega
  have key : ∀ (d w : Nat), IsDigits ref → ref.length = d → 0 < d → 10 ^ d ≤ 2 ^ w → Fits w ref := by
    intro d w h1 h2 h3 h4
    have := decVal_lt ref h1
    rw [h2] at this
    exact ⟨h1, hne _ h2 h3, by omega⟩
  generalize hp : partitionFor cp = p at *
  have t1 : ∀ p < 7, 10 ^ (p + 1) ≤ 2 ^ (44 - companyBits p) := by decide
  have t2 : ∀ p < 7, 10 ^ (p + 5) ≤ 2 ^ (58 - companyBits p) := by decide
  have t3 : ∀ p < 7, 10 ^ p ≤ 2 ^ (44 - companyBits p) := by decide
  cases sc with
  | sgtin =>
    have h2 := h.2
    rw [hp] at h2
    exact key _ _ h.1 h2 (by omega) (t1 p h7)
  | sscc =>
    have h2 := h.2
    rw [hp] at h2
    exact key _ _ h.1 h2 (by omega) (t2 p h7)
  | grai =>
    have h2 := h.2
    rw [hp] at h2
    exact key _ _ h.1 h2.1 h2.2 (t3 p h7)
  | giai =>
    obtain ⟨⟨h1, h2, h3⟩, h5⟩ := h
    rw [hp] at h5
    exact ⟨h1, h2, h5⟩


theorem wellFormed_encodable (sc : Scheme) (fields : List Str) (h : sc.WellFormed fields) :
    sc.Encodable fields := by
  match fields, h with
  | [fv], h => exact h
  | [fv, cp], h => exact h
  | [fv, cp, ref], h => exact ⟨h.1, h.2.1, fits_of_canonical sc cp ref h.2.1 h.2.2⟩
  | [fv, cp, ref, ser], ⟨h1, h2, h3, h4, h5, h6⟩ =>
    exact ⟨h1, h2, fits_of_canonical sc cp ref h2 h3, h4, h5.1, h5.2.1, h6⟩

/-- the bits of the fields -/
theorem pieces_padded (x : Binutil) (hx : x.Ok) (sc : Scheme) (cp : Str) (hcp : IsCompanyPrefix cp) :
    BinPadded 3 (partitionFor cp) (partitionBits (rowFor sc.table cp.length)) ∧
    BinPadded (companyBits (partitionFor cp)) (decVal cp)
      (x.getCompanyPrefix cp (rowFor sc.table cp.length)) ∧
    (∀ ref, Fits (sc.width - companyBits (partitionFor cp)) ref →
      BinPadded (sc.width - companyBits (partitionFor cp)) (decVal ref)
        (x.getRef ref (rowFor sc.table cp.length))) := by
  have hrow := rowFor_spec sc.isTable cp hcp
  obtain ⟨_, h2, h3, h4⟩ := company_bound cp hcp
  have hw := sc.width_bounds
  have h20 : ∀ p < 7, 20 ≤ companyBits p := by decide
  have := h20 _ h4
  rw [hrow]
  exact ⟨partitionBits_padded cp hcp _ rfl, getCompanyPrefix_padded x hx cp hcp _ rfl,
    fun ref h => getRef_padded x hx ref _ h (by show 0 < _ - _; omega) (by show _ - _ < 63; omega)⟩

/-- The filter string of a pattern exists, is a bit string, and a tag carries it iff it has these
    fields. -/
theorem encoder_carries (x : Binutil) (hx : x.Ok) (sc : Scheme) (fields : List Str)
    (h : sc.Encodable fields) :
    ∃ s, x.encoder sc.typeName fields = some s ∧ IsBitStr s ∧ 11 ≤ s.length ∧ s.length ≤ 96 ∧
      ∀ id : List Byte, 0 < id.length → (Carries s 0 id ↔ sc.Has id fields) := by
  have hhd := sc.headerText_padded
  have hw := sc.width_bounds
  have hhead : ∀ id : List Byte, 0 < id.length → (field id 0 8 = sc.header.toNat ↔
      id.head? = some sc.header) := fun id hl => field_head id _ hl
  match fields, h with
  | [fv], h =>
    have hf := getFilter_padded x fv h
    refine ⟨_, (encoder_pieces x sc fv [] [] []).1, hhd.1.append hf.1, ?_, ?_, fun id hl => ?_⟩
    · rw [List.length_append, hhd.2.1, hf.2.1]; omega
    · rw [List.length_append, hhd.2.1, hf.2.1]; omega
    · rw [carries_append, carries_padded hhd, hhd.2.1, carries_padded hf, hhead id hl]
      rfl
  | [fv, cp], ⟨h, hcp⟩ =>
    have hf := getFilter_padded x fv h
    obtain ⟨hp, hc, _⟩ := pieces_padded x hx sc cp hcp
    have hcb := company_bound cp hcp
    refine ⟨_, (encoder_pieces x sc fv cp [] []).2.1, ((hhd.1.append hf.1).append hp.1).append hc.1,
      ?_, ?_, fun id hl => ?_⟩
    · simp only [List.length_append, hhd.2.1, hf.2.1, hp.2.1, hc.2.1]; omega
    · simp only [List.length_append, hhd.2.1, hf.2.1, hp.2.1, hc.2.1]; omega
    · simp only [carries_append, carries_padded hhd, carries_padded hf, carries_padded hp,
        carries_padded hc, List.length_append, hhd.2.1, hf.2.1, hp.2.1, hhead id hl,
        Nat.zero_add, Nat.reduceAdd]
      unfold Scheme.Has companyOf partitionOf
      constructor
      · rintro ⟨⟨⟨a, b⟩, c⟩, d⟩
        exact ⟨a, b, c, by rw [c]; exact d⟩
      · rintro ⟨a, b, c, d⟩
        exact ⟨⟨⟨a, b⟩, c⟩, by rw [c] at d; exact d⟩
  | [fv, cp, ref], ⟨h, hcp, href⟩ =>
    have hf := getFilter_padded x fv h
    obtain ⟨hp, hc, hr⟩ := pieces_padded x hx sc cp hcp
    have hr := hr ref href
    have hcb := company_bound cp hcp
    refine ⟨_, (encoder_pieces x sc fv cp ref []).2.2.1,
      (((hhd.1.append hf.1).append hp.1).append hc.1).append hr.1, ?_, ?_, fun id hl => ?_⟩
    · simp only [List.length_append, hhd.2.1, hf.2.1, hp.2.1, hc.2.1]; omega
    · simp only [List.length_append, hhd.2.1, hf.2.1, hp.2.1, hc.2.1, hr.2.1]; omega
    · simp only [carries_append, carries_padded hhd, carries_padded hf, carries_padded hp,
        carries_padded hc, carries_padded hr, List.length_append, hhd.2.1, hf.2.1, hp.2.1, hc.2.1,
        hhead id hl, Nat.zero_add, Nat.reduceAdd]
      unfold Scheme.Has companyOf secondOf partitionOf
      constructor
      · rintro ⟨⟨⟨⟨a, b⟩, c⟩, d⟩, e⟩
        exact ⟨a, b, c, by rw [c]; exact d, by rw [c]; exact e⟩
      · rintro ⟨a, b, c, d, e⟩
        exact ⟨⟨⟨⟨a, b⟩, c⟩, by rw [c] at d; exact d⟩, by rw [c] at e; exact e⟩
  | [fv, cp, ref, ser], ⟨h, hcp, href, hs, hser⟩ =>
    have hf := getFilter_padded x fv h
    obtain ⟨hp, hc, hr⟩ := pieces_padded x hx sc cp hcp
    have hr := hr ref href
    have hcb := company_bound cp hcp
    have hsr := getSerial_padded x hx ser hser
    have hw44 : sc.width = 44 := by cases sc <;> first | rfl | exact hs.elim
    refine ⟨_, (encoder_pieces x sc fv cp ref ser).2.2.2 hs,
      ((((hhd.1.append hf.1).append hp.1).append hc.1).append hr.1).append hsr.1, ?_, ?_, fun id hl => ?_⟩
    · simp only [List.length_append, hhd.2.1, hf.2.1, hp.2.1, hc.2.1]; omega
    · simp only [List.length_append, hhd.2.1, hf.2.1, hp.2.1, hc.2.1, hr.2.1, hsr.2.1]; omega
    · have e58 : 8 + 3 + 3 + companyBits (partitionFor cp) +
          (sc.width - companyBits (partitionFor cp)) = 58 := by omega
      simp only [carries_append, carries_padded hhd, carries_padded hf, carries_padded hp,
        carries_padded hc, carries_padded hr, carries_padded hsr, List.length_append, hhd.2.1, hf.2.1,
        hp.2.1, hc.2.1, hr.2.1, hhead id hl, Nat.zero_add]
      rw [e58]
      unfold Scheme.Has companyOf secondOf serialOf partitionOf
      constructor
      · rintro ⟨⟨⟨⟨⟨a, b⟩, c⟩, d⟩, e⟩, f⟩
        exact ⟨a, b, c, by rw [c]; exact d, by rw [c]; exact e, f⟩
      · rintro ⟨a, b, c, d, e, f⟩
        exact ⟨⟨⟨⟨⟨a, b⟩, c⟩, by rw [c] at d; exact d⟩, by rw [c] at e; exact e⟩, f⟩


/-- what follows the second field -/
def Scheme.tail (sc : Scheme) (x : Binutil) (ser : Str) : Str :=
  match sc with
  | .sgtin => x.getSerial ser
  | .sscc => zeroPadding 24
  | .grai => x.getSerial ser
  | .giai => []

theorem make_eq (sc : Scheme) (x : Binutil) (fv cp ref ser : Str) :
    sc.make x fv cp ref ser = if cp = [] then none else pack96 sc.header (x.getFilter fv ++
      partitionBits (rowFor sc.table cp.length) ++ x.getCompanyPrefix cp (rowFor sc.table cp.length) ++
      x.getRef ref (rowFor sc.table cp.length) ++ sc.tail x ser) := by
  cases sc
  · show (if cp = [] then _ else _) = _
    simp [Scheme.header, Scheme.tail, Scheme.table]
  · show (if cp = [] then _ else _) = _
    simp [Scheme.header, Scheme.tail, Scheme.table]
  · show (if cp = [] then _ else _) = _
    simp [Scheme.header, Scheme.tail, Scheme.table]
  · show (if cp = [] then _ else _) = _
    simp [Scheme.header, Scheme.tail, Scheme.table]

/-- A tag carries the bits that were packed into it. -/
theorem make_carries (x : Binutil) (hx : x.Ok) (sc : Scheme) (fv cp ref ser : Str)
    (hfv : IsFilterValue fv) (hcp : IsCompanyPrefix cp)
    (href : ref = [] ∨ Fits (sc.width - companyBits (partitionFor cp)) ref)
    (hser : sc.hasSerial → ser = [] ∨ Fits 38 ser) :
    ∃ id, sc.make x fv cp ref ser = some ⟨id, [], []⟩ ∧ id.length = 12 ∧
      Carries (sc.headerText ++ (x.getFilter fv ++ partitionBits (rowFor sc.table cp.length) ++
        x.getCompanyPrefix cp (rowFor sc.table cp.length) ++
        x.getRef ref (rowFor sc.table cp.length) ++ sc.tail x ser)) 0 id := by
  have hf := getFilter_padded x fv hfv
  obtain ⟨hp, hc, hr⟩ := pieces_padded x hx sc cp hcp
  obtain ⟨_, _, hcb, h7⟩ := company_bound cp hcp
  have hw := sc.width_bounds
  have hne : cp ≠ [] := by intro e; have := hcp.2.1; simp [e] at this
  have hr' : IsBitStr (x.getRef ref (rowFor sc.table cp.length)) ∧
      (x.getRef ref (rowFor sc.table cp.length)).length = sc.width - companyBits (partitionFor cp) := by
    rcases href with rfl | href
    · rw [rowFor_spec sc.isTable cp hcp]
      exact getRef_random x hx _
    · exact ⟨(hr ref href).1, (hr ref href).2.1⟩
  have ht : IsBitStr (sc.tail x ser) ∧ (sc.tail x ser).length = 82 - sc.width := by
    have hs : sc.hasSerial → IsBitStr (x.getSerial ser) ∧ (x.getSerial ser).length = 38 := by
      intro h
      rcases hser h with rfl | h
      · exact hx.randomBits 2 38 (2 ^ 38)
      · exact ⟨(getSerial_padded x hx ser h).1, (getSerial_padded x hx ser h).2.1⟩
    cases sc
    · exact hs trivial
    · exact ⟨isBitStr_zeros 24, by simp [Scheme.tail, zeroPadding, Scheme.width]⟩
    · exact hs trivial
    · exact ⟨fun c hc => by (cases hc), rfl⟩
  obtain ⟨p, h1, h2, h3⟩ := pack96_spec sc.header _
    ((((hf.1.append hp.1).append hc.1).append hr'.1).append ht.1)
    (by simp only [List.length_append, hf.2.1, hp.2.1, hc.2.1, hr'.2, ht.2]; omega)
  refine ⟨_, by rw [make_eq, if_neg hne]; exact h1, by simp [h2], ?_⟩
  rw [carries_append]
  refine ⟨?_, by rw [sc.headerText_padded.2.1]; exact h3⟩
  rw [carries_padded sc.headerText_padded, field_head _ _ (by simp)]
  rfl

theorem make_has (x : Binutil) (hx : x.Ok) (sc : Scheme) (fv cp ref ser : Str)
    (h : sc.Encodable (sc.allFields fv cp ref ser)) :
    ∃ id, sc.make x fv cp ref ser = some ⟨id, [], []⟩ ∧ id.length = 12 ∧
      sc.Has id (sc.allFields fv cp ref ser) := by
  obtain ⟨s, e1, _, _, _, e2⟩ := encoder_carries x hx sc _ h
  unfold Scheme.allFields at h e1 e2 ⊢
  by_cases hs : sc.hasSerial
  · simp only [hs, if_true] at h e1 e2 ⊢
    obtain ⟨h1, h2, h3, _, h5⟩ := h
    obtain ⟨id, m1, m2, m3⟩ := make_carries x hx sc fv cp ref ser h1 h2 (Or.inr h3) fun _ => Or.inr h5
    refine ⟨id, m1, m2, (e2 id (by omega)).mp ?_⟩
    rw [(encoder_pieces x sc fv cp ref ser).2.2.2 hs] at e1
    cases e1
    have : sc.tail x ser = x.getSerial ser := by cases sc <;> first | rfl | exact hs.elim
    rw [this] at m3
    simpa [List.append_assoc] using m3
  · simp only [hs, if_false] at h e1 e2 ⊢
    obtain ⟨h1, h2, h3⟩ := h
    obtain ⟨id, m1, m2, m3⟩ := make_carries x hx sc fv cp ref ser h1 h2 (Or.inr h3) fun h => absurd h hs
    refine ⟨id, m1, m2, (e2 id (by omega)).mp ?_⟩
    rw [(encoder_pieces x sc fv cp ref ser).2.2.1] at e1
    cases e1
    rw [← List.append_assoc, carries_append] at m3
    simpa [List.append_assoc] using m3.1

/-- the literal at the start of an identity in the code -/
def Scheme.lead : Scheme → Str
  | .sgtin => "urn:epc:id:sgtin:".toList
  | .sscc => "urn:epc:id:sscc:".toList
  | .grai => "urn:epc:id:grai:".toList
  | .giai => "urn:epc:id:giai:".toList

/-- an identity in the way the code writes it -/
theorem urn_eq (sc : Scheme) (fields : List Str) :
    sc.urn fields = sc.lead ++ ['.'].intercalate fields := by
  have h : "urn:epc:id:".toList ++ sc.name ++ ":".toList = sc.lead := by cases sc <;> decide
  unfold Scheme.urn
  rw [h]

theorem intercalate2 (a b : Str) : ['.'].intercalate [a, b] = a ++ ".".toList ++ b := by
  simp [List.intercalate]

theorem intercalate3 (a b c : Str) :
    ['.'].intercalate [a, b, c] = a ++ ".".toList ++ b ++ ".".toList ++ c := by
  simp [List.intercalate]

/-- a tag with the values of canonical fields has the identity with their texts -/
theorem urn_of_fields (p0 p1 : Byte) (hp : p0.toNat % 2 = 0) (sc : Scheme) (id : List Byte)
    (hl : id.length = 12) (hh : id.head? = some sc.header) (cp ref ser : Str) (hcp : IsCompanyPrefix cp)
    (href : sc.Canonical cp ref) (h1 : partitionOf id = partitionFor cp) (h2 : companyOf id = decVal cp)
    (h3 : secondOf sc.width id = decVal ref) (hser : sc.hasSerial → Numeral (serialOf id) ser) :
    translate [p0, p1] id =
      some (sc.urn (if sc.hasSerial then [cp, ref, ser] else [cp, ref]), false) := by
  have h7 := (company_bound cp hcp).2.2.2
  have hcl : 12 - partitionFor cp = cp.length := by
    have := hcp.2; unfold partitionFor; omega
  have hc := decVal_lt cp hcp.1
  have hpc : Padded (12 - partitionFor cp) (decVal cp) cp := ⟨hcp.1, hcl.symm, rfl⟩
  cases sc with
  | sgtin =>
    have h3 : secondOf 44 id = decVal ref := h3
    have hr := decVal_lt ref href.1
    rw [href.2] at hr
    obtain ⟨c, r, s, q1, q2, q3, e⟩ := C33_urn p0 p1 id hp hl hh (by omega)
      (by rw [h1, h2, hcl]; exact hc) (by rw [h1, h3]; exact hr)
    rw [h1, h2] at q1
    rw [h1, h3] at q2
    have e1 := padded_unique _ _ _ _ q1 hpc
    rw [e, e1, padded_unique _ _ _ _ q2 ⟨href.1, href.2, rfl⟩,
      numeral_unique _ _ _ q3 (hser trivial)]
    rw [if_pos (show Scheme.sgtin.hasSerial from trivial), urn_eq, intercalate3]
    dsimp only [Scheme.lead]
    simp only [List.append_assoc]
  | sscc =>
    have h3 : secondOf 58 id = decVal ref := h3
    have hr := decVal_lt ref href.1
    rw [href.2] at hr
    obtain ⟨c, r, q1, q2, e⟩ := C34_urn p0 p1 id hp hl hh (by omega)
      (by rw [h1, h2, hcl]; exact hc) (by rw [h1, h3]; exact hr)
    rw [h1, h2] at q1
    rw [h1, h3] at q2
    have e1 := padded_unique _ _ _ _ q1 hpc
    rw [e, e1, padded_unique _ _ _ _ q2 ⟨href.1, href.2, rfl⟩]
    rw [if_neg (show ¬ Scheme.sscc.hasSerial from fun h => h), urn_eq, intercalate2]
    dsimp only [Scheme.lead]
    simp only [List.append_assoc]
  | grai =>
    have h3 : secondOf 44 id = decVal ref := h3
    have hr := decVal_lt ref href.1
    rw [href.2.1] at hr
    obtain ⟨c, r, s, q1, q2, q3, e⟩ := C35_urn p0 p1 id hp hl hh (by have := href.2.2; omega) (by omega)
      (by rw [h1, h2, hcl]; exact hc) (by rw [h1, h3]; exact hr)
    rw [h1, h2] at q1
    rw [h1, h3] at q2
    have e1 := padded_unique _ _ _ _ q1 hpc
    rw [e, e1, padded_unique _ _ _ _ q2 ⟨href.1, href.2.1, rfl⟩,
      numeral_unique _ _ _ q3 (hser trivial)]
    rw [if_pos (show Scheme.grai.hasSerial from trivial), urn_eq, intercalate3]
    dsimp only [Scheme.lead]
    simp only [List.append_assoc]
  | giai =>
    have h3 : secondOf 82 id = decVal ref := h3
    obtain ⟨c, r, q1, q2, e⟩ := C36_urn p0 p1 id hp hl hh (by omega) (by rw [h1, h2, hcl]; exact hc)
    rw [h1, h2] at q1
    rw [h3] at q2
    have e1 := padded_unique _ _ _ _ q1 hpc
    rw [e, e1, numeral_unique _ _ _ q2 href.1]
    rw [if_neg (show ¬ Scheme.giai.hasSerial from fun h => h), urn_eq, intercalate2]
    dsimp only [Scheme.lead]
    simp only [List.append_assoc]


/-- the start of every identity of a scheme -/
theorem identity_shape (p0 p1 : Byte) (hp : p0.toNat % 2 = 0) (sc : Scheme) (id : List Byte)
    (hl : id.length = 12) (hh : id.head? = some sc.header) (ident : Str) (e : Bool)
    (h : translate [p0, p1] id = some (ident, e)) :
    ∃ rest, ident = sc.urn [rest] ∧ (partitionOf id < 7 →
      ∃ c rest', Padded (12 - partitionOf id) (companyOf id) c ∧ rest = c ++ '.' :: rest') := by
  have hu : ∀ r, sc.urn [r] = sc.lead ++ r := by
    intro r; rw [urn_eq, List.intercalate_singleton]
  have hdot : ".".toList = ['.'] := rfl
  rcases partition_cases id with h7 | h7
  · have hnn : ¬ translate [p0, p1] id = none := by rw [h]; simp
    cases sc with
    | sgtin =>
      rw [C33_crash_iff p0 p1 id hp hl hh] at hnn
      obtain ⟨c, r, s, q1, _, _, q⟩ := C33_urn p0 p1 id hp hl hh h7 (by omega) (by omega)
      rw [q] at h; cases h
      refine ⟨c ++ '.' :: (r ++ '.' :: s), ?_, fun _ => ⟨c, _, q1, rfl⟩⟩
      rw [hu, hdot]
      dsimp only [Scheme.lead]
      simp only [List.append_assoc, List.cons_append, List.nil_append]
    | sscc =>
      rw [C34_crash_iff p0 p1 id hp hl hh] at hnn
      obtain ⟨c, r, q1, _, q⟩ := C34_urn p0 p1 id hp hl hh h7 (by omega) (by omega)
      rw [q] at h; cases h
      refine ⟨c ++ '.' :: r, ?_, fun _ => ⟨c, _, q1, rfl⟩⟩
      rw [hu, hdot]
      dsimp only [Scheme.lead]
      simp only [List.append_assoc, List.cons_append, List.nil_append]
    | grai =>
      rw [C35_crash_iff p0 p1 id hp hl hh] at hnn
      rcases Nat.eq_zero_or_pos (partitionOf id) with h0 | h0
      · have hc : companyOf id < 10 ^ 12 := by
          rw [h0] at hnn; omega
        obtain ⟨c, s, q1, _, q⟩ := C35_partition_zero p0 p1 id hp hl hh h0 hc
        rw [q] at h; cases h
        refine ⟨c ++ '.' :: s, ?_, fun _ => ⟨c, _, by rw [h0]; exact q1, rfl⟩⟩
        rw [hu, hdot]
        dsimp only [Scheme.lead]
        simp only [List.append_assoc, List.cons_append, List.nil_append]
      · obtain ⟨c, r, s, q1, _, _, q⟩ := C35_urn p0 p1 id hp hl hh h0 h7 (by omega) (by omega)
        rw [q] at h; cases h
        refine ⟨c ++ '.' :: (r ++ '.' :: s), ?_, fun _ => ⟨c, _, q1, rfl⟩⟩
        rw [hu, hdot]
        dsimp only [Scheme.lead]
        simp only [List.append_assoc, List.cons_append, List.nil_append]
    | giai =>
      rw [C36_crash_iff p0 p1 id hp hl hh] at hnn
      obtain ⟨c, r, q1, _, q⟩ := C36_urn p0 p1 id hp hl hh h7 (by omega)
      rw [q] at h; cases h
      refine ⟨c ++ '.' :: r, ?_, fun _ => ⟨c, _, q1, rfl⟩⟩
      rw [hu, hdot]
      dsimp only [Scheme.lead]
      simp only [List.append_assoc, List.cons_append, List.nil_append]
  · have habs : ∀ {P : Prop}, partitionOf id < 7 → P := fun h => absurd h (by omega)
    cases sc with
    | sgtin =>
      obtain ⟨s, _, q⟩ := C33_partition_seven p0 p1 id hp hl hh h7
      rw [q] at h; cases h
      exact ⟨s, (hu s).symm, habs⟩
    | sscc =>
      rw [C34_partition_seven p0 p1 id hp hl hh h7] at h; cases h
      exact ⟨[], by rw [hu, List.append_nil]; rfl, habs⟩
    | grai =>
      obtain ⟨s, _, q⟩ := C35_partition_seven p0 p1 id hp hl hh h7
      rw [q] at h; cases h
      exact ⟨s, (hu s).symm, habs⟩
    | giai =>
      rw [C36_partition_seven p0 p1 id hp hl hh h7] at h; cases h
      exact ⟨[], by rw [hu, List.append_nil]; rfl, habs⟩

end Gosstrak
