import Verif.Spec.Generate
import Verif.Props.Encode
import Verif.Props.Iso

/-! Facts about the generated texts. -/
namespace Gosstrak

theorem hexVal_hexDigit (n : Nat) (h : n < 16) : hexVal (hexDigit n) = some n := by
  revert n; decide

theorem byte_ext {a b : List Byte} (hl : a.length = b.length) (h : ∀ j, idBit a j = idBit b j) : a = b := by
  apply List.ext_getElem hl
  intro i h1 h2
  apply BitVec.eq_of_getMsbD_eq
  intro k hk
  have := h (8 * i + k)
  unfold idBit at this
  have e1 : (8 * i + k) / 8 = i := by omega
  have e2 : (8 * i + k) % 8 = k := by omega
  rw [e1, e2, List.getElem?_eq_getElem h1, List.getElem?_eq_getElem h2] at this
  exact this

/-- reading back the bits of an ID -/
theorem parseBin_bitsOf (id : List Byte) (h : id ≠ []) : parseBin (bitsOf id) = some id := by
  have hp : 0 < id.length := List.length_pos_iff.mpr h
  obtain ⟨bs, h1, h2, h3⟩ := parseBin_bits hp (length_bitsOf id) (isBitStr_bitsOf id)
  rw [h1]
  congr 1
  apply byte_ext h2
  intro j
  rw [h3, bitsOf_getElem?]
  by_cases hj : j < 8 * id.length
  · rw [if_pos hj]
    cases idBit id j <;> simp
  · rw [if_neg hj]
    have : id[j / 8]? = none := List.getElem?_eq_none (by omega)
    simp [idBit, this]

theorem makeByteID_bitsOf (id : List Byte) : makeByteID (bitsOf id) = (id, false) := by
  by_cases h : id = []
  · subst h; rfl
  · unfold makeByteID
    rw [parseBin_bitsOf id h]

theorem makeUint16PC_hex (p0 p1 : Byte) :
    makeUint16PC (hexEncode [p0, p1]) = (256 * p0.toNat + p1.toNat, false) := by
  have h0 := p0.isLt
  have h1 := p1.isLt
  unfold makeUint16PC parseHex16 hexEncode
  simp only [List.flatMap_cons, List.flatMap_nil, List.append_nil, List.cons_append, List.nil_append,
    List.isEmpty_cons, Bool.false_eq_true, if_false, List.foldl_cons, List.foldl_nil, hexStep,
    hexVal_hexDigit _ (show p0.toNat / 16 < 16 by omega), hexVal_hexDigit _ (show p0.toNat % 16 < 16 by omega),
    hexVal_hexDigit _ (show p1.toNat / 16 < 16 by omega), hexVal_hexDigit _ (show p1.toNat % 16 < 16 by omega)]
  rw [if_pos (by omega)]
  simp only [Prod.mk.injEq, and_true]
  omega

theorem reads_as (t : BinText) (ht : t.Ok) (p0 p1 : Byte) (id : List Byte) :
    ReadsAs (t.hexToBin (hexEncode id)) (hexEncode [p0, p1]) p0 p1 id := by
  rw [ht.hexToBin]
  exact ⟨makeByteID_bitsOf id, makeUint16PC_hex p0 p1⟩

theorem upper_names (sc : Scheme) : toUpper sc.typeName = match sc with
    | .sgtin => "SGTIN-96".toList | .sscc => "SSCC-96".toList | .grai => "GRAI-96".toList
    | .giai => "GIAI-96".toList := by
  cases sc <;> decide

/-- the switch picks the function of the scheme -/
theorem makeAny_tag (x : Binutil) (sc : Scheme) (cs : Str) (h : sc.Named cs)
    (fv cp ir ext ser iar at' : Str) : x.makeAny false cs fv cp ir ext ser iar at' =
      (sc.make x fv cp (sc.second ir ext iar at') ser).getD ⟨[], [], []⟩ := by
  unfold Scheme.Named at h
  unfold Binutil.makeAny
  rw [h]
  cases sc <;> rfl

theorem makeAny_filter (x : Binutil) (sc : Scheme) (cs : Str) (h : sc.Named cs)
    (fv cp ir ext ser iar at' : Str) : x.makeAny true cs fv cp ir ext ser iar at' =
      (sc.makeFilter x [fv, cp, sc.second ir ext iar at', ser]).getD ⟨[], [], []⟩ := by
  unfold Scheme.Named at h
  unfold Binutil.makeAny
  rw [h]
  cases sc <;> rfl

theorem makeAny_unknown (x : Binutil) (pf : Bool) (cs : Str) (h : ∀ sc : Scheme, ¬ sc.Named cs)
    (fv cp ir ext ser iar at' : Str) : x.makeAny pf cs fv cp ir ext ser iar at' = ⟨[], [], []⟩ := by
  unfold Scheme.Named at h
  have h1 := h .sgtin
  have h2 := h .sscc
  have h3 := h .grai
  have h4 := h .giai
  rw [upper_names] at h1 h2 h3 h4
  unfold Binutil.makeAny
  rw [if_neg h4, if_neg h3, if_neg h1, if_neg h2]
  rfl

theorem named_unique (sc sc' : Scheme) (cs : Str) (h : sc.Named cs) (h' : sc'.Named cs) : sc = sc' := by
  unfold Scheme.Named at h h'
  rw [h] at h'
  revert h'
  cases sc <;> cases sc' <;> decide

theorem bitOfRune_some {c : Char} {b : Bool} (h : bitOfRune c = some b) : c = '0' ∨ c = '1' := by
  unfold bitOfRune at h
  split at h
  · rename_i hc; exact Or.inr hc
  · split at h
    · rename_i hc; exact Or.inl hc
    · cases h

theorem parseBinAux_isBitStr (n : Nat) : ∀ (s : Str) (p : List Byte), s.length ≤ n →
    parseBinAux s = some p → IsBitStr s := by
  induction n using Nat.strongRecOn with
  | _ n ih =>
    intro s p hn h
    match s, h with
    | [], h => intro c hc; cases hc
    | c7 :: c6 :: c5 :: c4 :: c3 :: c2 :: c1 :: c0 :: rest, h =>
      unfold parseBinAux at h
      simp only [Option.bind_eq_bind, Option.bind_eq_some_iff] at h
      obtain ⟨_, g7, _, g6, _, g5, _, g4, _, g3, _, g2, _, g1, _, g0, r, hr, he⟩ := h
      have hlen : rest.length ≤ n - 8 := by simp at hn; omega
      have := ih (n - 8) (by simp at hn; omega) rest r hlen hr
      intro c hc
      simp only [List.mem_cons] at hc
      rcases hc with e | e | e | e | e | e | e | e | e
      · rw [e]; exact bitOfRune_some g7
      · rw [e]; exact bitOfRune_some g6
      · rw [e]; exact bitOfRune_some g5
      · rw [e]; exact bitOfRune_some g4
      · rw [e]; exact bitOfRune_some g3
      · rw [e]; exact bitOfRune_some g2
      · rw [e]; exact bitOfRune_some g1
      · rw [e]; exact bitOfRune_some g0
      · exact this c e
    | [_], h => simp [parseBinAux] at h
    | [_, _], h => simp [parseBinAux] at h
    | [_, _, _], h => simp [parseBinAux] at h
    | [_, _, _, _], h => simp [parseBinAux] at h
    | [_, _, _, _, _], h => simp [parseBinAux] at h
    | [_, _, _, _, _, _], h => simp [parseBinAux] at h
    | [_, _, _, _, _, _, _], h => simp [parseBinAux] at h

theorem foldl_hexStep (s : Str) : ∀ (a n : Nat), s.foldl hexStep (some a) = some n ↔
    ∃ ds : List Nat, s.map hexVal = ds.map some ∧ n = ds.foldl (fun a d => 16 * a + d) a := by
  have hnone : ∀ s : Str, s.foldl hexStep none = none := by
    intro s
    induction s with
    | nil => rfl
    | cons c s ih => exact ih
  induction s with
  | nil =>
    intro a n
    constructor
    · intro h
      cases h
      exact ⟨[], rfl, rfl⟩
    · rintro ⟨ds, h1, h2⟩
      cases ds with
      | nil => rw [h2]; rfl
      | cons d ds => cases h1
  | cons c s ih =>
    intro a n
    rw [List.foldl_cons]
    cases hc : hexVal c with
    | none =>
      have : hexStep (some a) c = none := by unfold hexStep; rw [hc]
      rw [this, hnone]
      constructor
      · intro h; cases h
      · rintro ⟨ds, h1, h2⟩
        cases ds with
        | nil => cases h1
        | cons d ds =>
          rw [List.map_cons, List.map_cons, hc] at h1
          cases h1
    | some d =>
      have : hexStep (some a) c = some (16 * a + d) := by unfold hexStep; rw [hc]
      rw [this, ih]
      constructor
      · rintro ⟨ds, h1, h2⟩
        exact ⟨d :: ds, by rw [List.map_cons, List.map_cons, hc, h1], h2⟩
      · rintro ⟨ds, h1, h2⟩
        cases ds with
        | nil => cases h1
        | cons d' ds =>
          rw [List.map_cons, List.map_cons, hc] at h1
          obtain ⟨e1, e2⟩ := List.cons.inj h1
          cases e1
          exact ⟨ds, e2, h2⟩

end Gosstrak
