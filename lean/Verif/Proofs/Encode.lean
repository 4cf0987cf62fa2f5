import Verif.Spec.Encode
import Verif.Proofs.Translate
import Verif.Proofs.Bits
import Verif.Proofs.ParseUint

namespace Gosstrak

/-! ### binary numerals -/

theorem binVal_append (s t : Str) : binVal (s ++ t) = binVal s * 2 ^ t.length + binVal t := by
  have h : ∀ (t : Str) (n : Nat), t.foldl (fun n c => 2 * n + (if c = '1' then 1 else 0)) n
      = n * 2 ^ t.length + t.foldl (fun n c => 2 * n + (if c = '1' then 1 else 0)) 0 := by
    intro t
    induction t with
    | nil => intro n; simp
    | cons c t ih =>
      intro n
      rw [List.foldl_cons, List.foldl_cons, ih, ih (2 * 0 + _), List.length_cons,
        Nat.pow_succ]
      rw [Nat.add_mul, Nat.add_mul, Nat.mul_comm (2 ^ t.length) 2, ← Nat.mul_assoc,
        Nat.mul_comm n 2]
      omega
  unfold binVal
  rw [List.foldl_append, h]

theorem binVal_lt (s : Str) : binVal s < 2 ^ s.length := by
  induction s with
  | nil => simp [binVal]
  | cons c s ih =>
    have h3 := binVal_append [c] s
    have h4 : binVal [c] ≤ 1 := by
      simp only [binVal, List.foldl_cons, List.foldl_nil]
      split <;> omega
    rw [List.singleton_append] at h3
    rw [h3, List.length_cons, Nat.pow_succ]
    have : binVal [c] * 2 ^ s.length ≤ 1 * 2 ^ s.length := Nat.mul_le_mul_right _ h4
    omega

theorem bit_ofNat (k : Nat) (h : k < 2) :
    (Char.ofNat (48 + k) = '0' ∨ Char.ofNat (48 + k) = '1') ∧
      binVal [Char.ofNat (48 + k)] = k ∧ (Char.ofNat (48 + k) = '0' → k = 0) := by
  rcases (by omega : k = 0 ∨ k = 1) with rfl | rfl <;> decide

theorem binDigits_numeral (fuel n : Nat) (h : n < fuel) : BinNumeral n (binDigits fuel n) := by
  induction fuel generalizing n with
  | zero => omega
  | succ fuel ih =>
    unfold binDigits
    split
    · rename_i hlt
      obtain ⟨h1, h2, h3⟩ := bit_ofNat n hlt
      refine ⟨?_, by simp, h2, ?_⟩
      · intro c hc
        rw [List.mem_singleton] at hc
        exact hc ▸ h1
      · intro h
        have := h3 (by simpa using h)
        subst this; rfl
    · rename_i hlt
      obtain ⟨i1, i2, i3, i4⟩ := ih (n / 2) (by omega)
      obtain ⟨h1, h2, h3⟩ := bit_ofNat (n % 2) (by omega)
      refine ⟨?_, by simp, ?_, ?_⟩
      · intro c hc
        rw [List.mem_append, List.mem_singleton] at hc
        rcases hc with hc | hc
        · exact i1 c hc
        · exact hc ▸ h1
      · rw [binVal_append, i3, h2]
        simp
        omega
      · intro h
        have e : (binDigits fuel (n / 2)).head? = some '0' := by
          rw [List.head?_append] at h
          cases e : (binDigits fuel (n / 2)).head? with
          | none => exact absurd (List.head?_eq_none_iff.mp e) i2
          | some c => rw [e] at h; simpa using h
        have := i4 e
        rw [this] at i3
        have : binVal ['0'] = 0 := by decide
        omega

theorem binStr_numeral (n : Nat) : BinNumeral n (binStr n) := binDigits_numeral _ _ (by omega)

theorem binNumeral_length (n d : Nat) (s : Str) (h : BinNumeral n s) (hd : 0 < d) :
    s.length ≤ d ↔ n < 2 ^ d := by
  obtain ⟨h1, h2, h3, h4⟩ := h
  constructor
  · intro hl
    have := binVal_lt s
    have : 2 ^ s.length ≤ 2 ^ d := Nat.pow_le_pow_right (by omega) hl
    omega
  · intro hn
    match s, h1, h2, h3, h4 with
    | c :: s, h1, _, h3, h4 =>
      by_cases hc : c = '0'
      · have : s = [] := by simpa [hc] using h4 (by simp [hc])
        subst this; rw [List.length_singleton]; omega
      · have hc1 : c = '1' := by
          rcases h1 c List.mem_cons_self with h | h
          · exact absurd h hc
          · exact h
        have h5 := binVal_append [c] s
        have h6 : binVal [c] = 1 := by rw [hc1]; rfl
        rw [List.singleton_append, h6, h3] at h5
        have h7 : 2 ^ s.length < 2 ^ d := by omega
        have := (Nat.pow_lt_pow_iff_right (by omega : 1 < 2)).mp h7
        rw [List.length_cons]; omega

theorem isBitStr_zeros (n : Nat) : IsBitStr (zeroPadding n) := by
  intro c hc
  exact Or.inl (List.mem_replicate.mp hc).2

theorem binVal_zeros (k : Nat) : binVal (zeroPadding k) = 0 := by
  unfold zeroPadding
  induction k with
  | zero => rfl
  | succ k ih =>
    rw [List.replicate_succ', binVal_append, ih]
    rfl

theorem leftPad_padded (w n : Nat) (s : Str) (h : BinNumeral n s) (hw : 0 < w) (hn : n < 2 ^ w) :
    BinPadded w n (leftPad w s) := by
  have hl := (binNumeral_length n w s h hw).mpr hn
  unfold leftPad
  split
  · refine ⟨(isBitStr_zeros _).append h.1, ?_, ?_⟩
    · simp [zeroPadding]; omega
    · rw [binVal_append, binVal_zeros, h.2.2.1]; simp
  · exact ⟨h.1, by omega, h.2.2.1⟩

theorem fmtBin_padded (w n : Nat) (hw : 0 < w) (hn : n < 2 ^ w) : BinPadded w n (fmtBin w (n : Int)) := by
  unfold fmtBin
  rw [if_neg (by omega), List.nil_append]
  exact leftPad_padded w n _ (binStr_numeral n) hw hn

/-! ### bits carried by an ID -/

theorem field_succ (id : List Byte) (o n : Nat) :
    field id o (n + 1) = 2 * field id o n + (idBit id (o + n)).toNat := rfl

/-- carrying a bit string is having its value in the field -/
theorem carries_field (s : Str) (hs : IsBitStr s) (o : Nat) (id : List Byte) :
    Carries s o id ↔ field id o s.length = binVal s := by
  have key : ∀ (n : Nat) (s : Str), s.length = n → IsBitStr s →
      (Carries s o id ↔ field id o s.length = binVal s) := by
    intro n
    induction n with
    | zero =>
      intro s hl _
      have : s = [] := List.length_eq_zero_iff.mp hl
      subst this
      simp [Carries, field, bitsVal, binVal]
    | succ n ih =>
      intro s hl hs
      have hne : s ≠ [] := by intro h; simp [h] at hl
      obtain ⟨t, c, rfl⟩ : ∃ t c, s = t ++ [c] :=
        ⟨s.dropLast, s.getLast hne, (List.dropLast_concat_getLast hne).symm⟩
      have htl : t.length = n := by simpa using hl
      rw [carries_append, ih t htl hs.of_append_left, List.length_append, List.length_singleton,
        field_succ, binVal_append, List.length_singleton]
      have hb := hs c (by simp)
      have hc : Carries [c] (o + t.length) id ↔ (idBit id (o + t.length)).toNat = binVal [c] := by
        unfold Carries
        constructor
        · intro h
          have := h 0 c (by simp) (by rcases hb with h | h <;> rw [h] <;> decide)
          rw [Nat.add_zero] at this
          rcases hb with rfl | rfl
          · have : idBit id (o + t.length) = false := by
              cases e : idBit id (o + t.length)
              · rfl
              · exact absurd (this.mpr e) (by decide)
            rw [this]; rfl
          · rw [this.mp rfl]; rfl
        · intro h i d hi _
          have hi0 : i = 0 := by
            have := (List.getElem?_eq_some_iff.mp hi).1
            simp at this; omega
          subst hi0
          have : c = d := by simpa using hi
          subst this
          rw [Nat.add_zero]
          rcases hb with rfl | rfl
          · constructor
            · intro h'; exact absurd h' (by decide)
            · intro h'; rw [h'] at h; exact absurd h (by decide)
          · constructor
            · intro _
              cases e : idBit id (o + t.length)
              · rw [e] at h; exact absurd h (by decide)
              · rfl
            · intro _; rfl
      rw [hc]
      have h1 : (idBit id (o + t.length)).toNat < 2 := Bool.toNat_lt _
      have h2 := binVal_lt [c]
      rw [List.length_singleton] at h2
      omega
  exact key s.length s rfl hs

theorem carries_padded {w n : Nat} {s : Str} (h : BinPadded w n s) (o : Nat) (id : List Byte) :
    Carries s o id ↔ field id o w = n := by
  rw [carries_field s h.1, h.2.1, h.2.2]

/-- packing eleven bytes of bits behind a header -/
theorem pack96_spec (header : Byte) (bs : Str) (hb : IsBitStr bs) (hl : bs.length = 88) :
    ∃ p, pack96 header bs = some ⟨header :: p, [], []⟩ ∧ p.length = 11 ∧ Carries bs 8 (header :: p) := by
  obtain ⟨p, h1, h2, h3⟩ := parseBin_bits (n := 11) (by omega) hl hb
  unfold pack96
  rw [if_neg (by omega), h1]
  refine ⟨p, rfl, h2, ?_⟩
  intro i c hi _
  rw [idBit_cons, if_neg (by omega), h3, Nat.add_sub_cancel_left, hi]
  simp

theorem parseBinAux_length (n : Nat) : ∀ (s : Str) (p : List Byte), s.length ≤ n →
    parseBinAux s = some p → s.length = 8 * p.length := by
  induction n using Nat.strongRecOn with
  | _ n ih =>
    intro s p hn h
    match s, h with
    | [], h => simp [parseBinAux] at h; subst h; rfl
    | c7 :: c6 :: c5 :: c4 :: c3 :: c2 :: c1 :: c0 :: rest, h =>
      unfold parseBinAux at h
      simp only [Option.bind_eq_bind, Option.bind_eq_some_iff] at h
      obtain ⟨_, _, _, _, _, _, _, _, _, _, _, _, _, _, _, _, r, hr, he⟩ := h
      have hlen : rest.length ≤ n - 8 := by simp at hn; omega
      have := ih (n - 8) (by simp at hn; omega) rest r hlen hr
      have he : _ :: r = p := Option.some.inj he
      rw [← he]
      simp; omega
    | [_], h => simp [parseBinAux] at h
    | [_, _], h => simp [parseBinAux] at h
    | [_, _, _], h => simp [parseBinAux] at h
    | [_, _, _, _], h => simp [parseBinAux] at h
    | [_, _, _, _, _], h => simp [parseBinAux] at h
    | [_, _, _, _, _, _], h => simp [parseBinAux] at h
    | [_, _, _, _, _, _, _], h => simp [parseBinAux] at h

theorem parseBin_length (s : Str) (p : List Byte) (h : parseBin s = some p) :
    s.length = 8 * p.length := by
  unfold parseBin at h
  split at h
  · cases h
  · exact parseBinAux_length _ s p (Nat.le_refl _) h

/-! ### field texts -/

theorem parseDigits_digits (s : Str) (h : IsDigits s) (hne : s ≠ []) (hv : decVal s < 2 ^ 32) :
    parseDigits s = some (decVal s) := by
  have := parseDigits_spec s [] h (by simp)
  rw [List.append_nil] at this
  rw [this, if_neg (by omega), if_pos ⟨hne, rfl⟩]

theorem parseInt32_digits (s : Str) (h : IsDigits s) (hne : s ≠ []) (hv : decVal s < 2 ^ 31) :
    parseInt32 s = (decVal s : Int) := by
  have hp := parseDigits_digits s h hne (by omega)
  have hr : parseSigned s = some (decVal s : Int) := by
    unfold parseSigned
    split
    · exact absurd (h '-' (by simp)).1 (by decide)
    · exact absurd (h '+' (by simp)).1 (by decide)
    · rw [hp]; rfl
  unfold parseInt32
  rw [hr]
  dsimp only
  omega

theorem getFilter_padded (x : Binutil) (fv : Str) (h : IsFilterValue fv) :
    BinPadded 3 (decVal fv) (x.getFilter fv) := by
  unfold Binutil.getFilter
  rw [if_pos h.2.1, parseInt32_digits fv h.1 h.2.1 (by have := h.2.2; omega)]
  exact fmtBin_padded 3 _ (by omega) (by have := h.2.2; omega)

theorem getRef_padded (x : Binutil) (hx : x.Ok) (s : Str) (r : Row) (h : Fits r.bits s)
    (hb : 0 < r.bits) (hb2 : r.bits < 63) : BinPadded r.bits (decVal s) (x.getRef s (some r)) := by
  unfold Binutil.getRef
  dsimp only [Option.map_some, Option.getD_some]
  rw [if_pos h.2.1]
  refine leftPad_padded _ _ _ (hx.decToBin s h.1 h.2.1 ?_) hb h.2.2
  exact Nat.lt_trans h.2.2 (Nat.pow_lt_pow_right (by omega) hb2)

theorem getRef_random (x : Binutil) (hx : x.Ok) (r : Row) :
    IsBitStr (x.getRef [] (some r)) ∧ (x.getRef [] (some r)).length = r.bits := by
  unfold Binutil.getRef
  dsimp only [Option.map_some, Option.getD_some]
  rw [if_neg (by simp)]
  exact hx.randomBits _ _ _

theorem getSerial_padded (x : Binutil) (hx : x.Ok) (s : Str) (h : Fits 38 s) :
    BinPadded 38 (decVal s) (x.getSerial s) := by
  unfold Binutil.getSerial
  rw [if_pos h.2.1]
  refine leftPad_padded _ _ _ (hx.decToBin s h.1 h.2.1 ?_) (by omega) h.2.2
  exact Nat.lt_trans h.2.2 (Nat.pow_lt_pow_right (by omega) (by omega))

/-- the shape of all four tables -/
def IsTable (table : List Row) (w : Nat) (digits : Nat → Nat) : Prop :=
  table = (List.range 7).map fun p => ⟨12 - p, p, companyBits p, w - companyBits p, digits p⟩

theorem rowFor_spec {table : List Row} {w : Nat} {digits : Nat → Nat} (ht : IsTable table w digits)
    (cp : Str) (h : IsCompanyPrefix cp) :
    rowFor table cp.length = some ⟨12 - partitionFor cp, partitionFor cp, companyBits (partitionFor cp),
      w - companyBits (partitionFor cp), digits (partitionFor cp)⟩ := by
  obtain ⟨_, h1, h2⟩ := h
  unfold rowFor partitionFor
  rw [ht]
  generalize cp.length = n at *
  rcases (by omega : n = 6 ∨ n = 7 ∨ n = 8 ∨ n = 9 ∨ n = 10 ∨ n = 11 ∨ n = 12)
    with rfl | rfl | rfl | rfl | rfl | rfl | rfl <;> rfl

theorem company_bound (cp : Str) (h : IsCompanyPrefix cp) :
    decVal cp < 2 ^ companyBits (partitionFor cp) ∧ 0 < companyBits (partitionFor cp) ∧
      companyBits (partitionFor cp) ≤ 40 ∧ partitionFor cp < 7 := by
  have h3 := decVal_lt cp h.1
  obtain ⟨_, h1, h2⟩ := h
  unfold partitionFor
  generalize decVal cp = v at *
  generalize cp.length = n at *
  rcases (by omega : n = 6 ∨ n = 7 ∨ n = 8 ∨ n = 9 ∨ n = 10 ∨ n = 11 ∨ n = 12)
    with rfl | rfl | rfl | rfl | rfl | rfl | rfl <;>
  simp only [companyBits, Nat.reduceSub, List.getD_cons_zero, List.getD_cons_succ] <;> omega

theorem getCompanyPrefix_padded (x : Binutil) (hx : x.Ok) (cp : Str) (h : IsCompanyPrefix cp) (r : Row)
    (hr : r.cpBits = companyBits (partitionFor cp)) :
    BinPadded (companyBits (partitionFor cp)) (decVal cp) (x.getCompanyPrefix cp (some r)) := by
  obtain ⟨h1, h2, h3, _⟩ := company_bound cp h
  have hne : cp ≠ [] := by intro e; have := h.2.1; simp [e] at this
  unfold Binutil.getCompanyPrefix
  dsimp only [Option.map_some, Option.getD_some]
  rw [if_pos hne, hr]
  refine leftPad_padded _ _ _ (hx.decToBin cp h.1 hne ?_) h2 h1
  exact Nat.lt_of_lt_of_le h1 (Nat.pow_le_pow_right (by omega) (by omega))

theorem partitionBits_padded (cp : Str) (h : IsCompanyPrefix cp) (r : Row)
    (hr : r.pValue = partitionFor cp) : BinPadded 3 (partitionFor cp) (partitionBits (some r)) := by
  unfold partitionBits
  dsimp only [Option.map_some, Option.getD_some]
  rw [hr]
  exact fmtBin_padded 3 _ (by omega) (by unfold partitionFor; have := h.2.1; omega)

end Gosstrak
