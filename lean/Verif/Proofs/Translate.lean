import Verif.Model.Translate
import Verif.Spec.EPC

namespace Gosstrak

/-! ### decimal numerals -/

theorem digit_ofNat (k : Nat) (h : k < 10) :
    ('0' ≤ Char.ofNat (48 + k) ∧ Char.ofNat (48 + k) ≤ '9') ∧ digitVal (Char.ofNat (48 + k)) = k ∧
      (Char.ofNat (48 + k) = '0' → k = 0) := by
  revert k; decide

theorem decVal_append (s t : Str) : decVal (s ++ t) = decVal s * 10 ^ t.length + decVal t := by
  have h : ∀ (t : Str) (n : Nat), t.foldl (fun n c => 10 * n + digitVal c) n
      = n * 10 ^ t.length + t.foldl (fun n c => 10 * n + digitVal c) 0 := by
    intro t
    induction t with
    | nil => intro n; simp
    | cons c t ih =>
      intro n
      rw [List.foldl_cons, List.foldl_cons, ih, ih (10 * 0 + digitVal c), List.length_cons,
        Nat.pow_succ]
      rw [Nat.add_mul, Nat.add_mul, Nat.mul_comm (10 ^ t.length) 10, ← Nat.mul_assoc,
        Nat.mul_comm n 10]
      omega
  unfold decVal
  rw [List.foldl_append, h]

theorem digitVal_lt (c : Char) (h : '0' ≤ c ∧ c ≤ '9') : digitVal c < 10 := by
  obtain ⟨h1, h2⟩ := h
  rw [Char.le_def, UInt32.le_iff_toNat_le] at h1 h2
  have : c.toNat ≤ 57 := h2
  unfold digitVal
  omega

theorem decVal_lt (s : Str) (h : IsDigits s) : decVal s < 10 ^ s.length := by
  induction s with
  | nil => simp [decVal]
  | cons c s ih =>
    have h1 := ih (fun d hd => h d (List.mem_cons_of_mem _ hd))
    have h2 := digitVal_lt c (h c List.mem_cons_self)
    have h3 := decVal_append [c] s
    have h4 : decVal [c] = digitVal c := by simp [decVal]
    rw [List.singleton_append, h4] at h3
    rw [h3, List.length_cons, Nat.pow_succ]
    have : digitVal c * 10 ^ s.length ≤ 9 * 10 ^ s.length := Nat.mul_le_mul_right _ (by omega)
    omega

theorem decDigits_numeral (fuel n : Nat) (h : n < fuel) : Numeral n (decDigits fuel n) := by
  induction fuel generalizing n with
  | zero => omega
  | succ fuel ih =>
    unfold decDigits
    split
    · rename_i hlt
      obtain ⟨h1, h2, h3⟩ := digit_ofNat n hlt
      refine ⟨?_, by simp, by simp [decVal, h2], ?_⟩
      · intro c hc
        rw [List.mem_singleton] at hc
        exact hc ▸ h1
      · intro h
        have := h3 (by simpa using h)
        subst this; rfl
    · rename_i hlt
      obtain ⟨i1, i2, i3, i4⟩ := ih (n / 10) (by omega)
      obtain ⟨h1, h2, h3⟩ := digit_ofNat (n % 10) (by omega)
      refine ⟨?_, by simp, ?_, ?_⟩
      · intro c hc
        rw [List.mem_append, List.mem_singleton] at hc
        rcases hc with hc | hc
        · exact i1 c hc
        · exact hc ▸ h1
      · rw [decVal_append, i3]
        simp [decVal, h2]
        omega
      · intro h
        have e : (decDigits fuel (n / 10)).head? = some '0' := by
          rw [List.head?_append] at h
          cases e : (decDigits fuel (n / 10)).head? with
          | none => exact absurd (List.head?_eq_none_iff.mp e) i2
          | some c => rw [e] at h; simpa using h
        have := i4 e
        rw [this] at i3
        have : decVal ['0'] = 0 := by decide
        omega

theorem decStr_numeral (n : Nat) : Numeral n (decStr n) := decDigits_numeral _ _ (by omega)

theorem numeral_length (n d : Nat) (s : Str) (h : Numeral n s) (hd : 0 < d) :
    s.length ≤ d ↔ n < 10 ^ d := by
  obtain ⟨h1, h2, h3, h4⟩ := h
  constructor
  · intro hl
    have := decVal_lt s h1
    have : 10 ^ s.length ≤ 10 ^ d := Nat.pow_le_pow_right (by omega) hl
    omega
  · intro hn
    match s, h1, h2, h3, h4 with
    | c :: s, h1, _, h3, h4 =>
      by_cases hc : c = '0'
      · have : s = [] := by simpa [hc] using h4 (by simp [hc])
        subst this; rw [List.length_singleton]; omega
      · have hcv : 1 ≤ digitVal c := by
          obtain ⟨ha, hb⟩ := h1 c List.mem_cons_self
          rw [Char.le_def, UInt32.le_iff_toNat_le] at ha
          have ha : 48 ≤ c.toNat := ha
          have : c.toNat ≠ 48 := fun e => hc (Char.toNat_inj.mp e)
          unfold digitVal; omega
        have h5 := decVal_append [c] s
        have h6 : decVal [c] = digitVal c := by simp [decVal]
        rw [List.singleton_append, h6, h3] at h5
        have : 1 * 10 ^ s.length ≤ digitVal c * 10 ^ s.length := Nat.mul_le_mul_right _ hcv
        have h7 : 10 ^ s.length < 10 ^ d := by omega
        have := (Nat.pow_lt_pow_iff_right (by omega : 1 < 10)).mp h7
        rw [List.length_cons]; omega

/-- numerals are unique -/
theorem padded_unique (d n : Nat) (s t : Str) (hs : Padded d n s) (ht : Padded d n t) : s = t := by
  induction d generalizing n s t with
  | zero =>
    rw [List.eq_nil_of_length_eq_zero hs.2.1, List.eq_nil_of_length_eq_zero ht.2.1]
  | succ d ih =>
    obtain ⟨s1, s2, s3⟩ := hs
    obtain ⟨t1, t2, t3⟩ := ht
    match s, t, s1, s2, s3, t1, t2, t3 with
    | c :: s, e :: t, s1, s2, s3, t1, t2, t3 =>
      have hs := decVal_append [c] s
      have ht := decVal_append [e] t
      have h6 : ∀ c, decVal [c] = digitVal c := by simp [decVal]
      rw [List.singleton_append, h6, s3] at hs
      rw [List.singleton_append, h6, t3] at ht
      have ls : s.length = d := by simpa using s2
      have lt : t.length = d := by simpa using t2
      have ds : IsDigits s := fun x hx => s1 x (List.mem_cons_of_mem _ hx)
      have dt : IsDigits t := fun x hx => t1 x (List.mem_cons_of_mem _ hx)
      have bs := decVal_lt s ds
      have bt := decVal_lt t dt
      rw [ls] at hs bs
      rw [lt] at ht bt
      have hv : digitVal c = digitVal e := by
        have hpos : 0 < 10 ^ d := Nat.pow_pos (by omega)
        have e1 : n / 10 ^ d = digitVal c := by
          rw [hs, Nat.mul_comm, Nat.mul_add_div hpos, Nat.div_eq_of_lt bs]; rfl
        have e2 : n / 10 ^ d = digitVal e := by
          rw [ht, Nat.mul_comm, Nat.mul_add_div hpos, Nat.div_eq_of_lt bt]; rfl
        omega
      have hce : c = e := by
        obtain ⟨ha, _⟩ := s1 c List.mem_cons_self
        obtain ⟨hb, _⟩ := t1 e List.mem_cons_self
        rw [Char.le_def, UInt32.le_iff_toNat_le] at ha hb
        have ha : 48 ≤ c.toNat := ha
        have hb : 48 ≤ e.toNat := hb
        unfold digitVal at hv
        exact Char.toNat_inj.mp (by omega)
      subst hce
      rw [ih (decVal s) s t ⟨ds, ls, rfl⟩ ⟨dt, lt, by omega⟩]

theorem numeral_unique (n : Nat) (s t : Str) (hs : Numeral n s) (ht : Numeral n t) : s = t := by
  have hs0 : 0 < s.length := List.length_pos_iff.mpr hs.2.1
  have ht0 : 0 < t.length := List.length_pos_iff.mpr ht.2.1
  have h1 := (numeral_length n t.length s hs ht0).mpr
    ((numeral_length n t.length t ht ht0).mp (Nat.le_refl _))
  have h2 := (numeral_length n s.length t ht hs0).mpr
    ((numeral_length n s.length s hs hs0).mp (Nat.le_refl _))
  exact padded_unique s.length n s t ⟨hs.1, rfl, hs.2.2.1⟩ ⟨ht.1, by omega, ht.2.2.1⟩

theorem decVal_zeros (k : Nat) : decVal (List.replicate k '0') = 0 := by
  induction k with
  | zero => rfl
  | succ k ih =>
    rw [List.replicate_succ', decVal_append, ih]
    rfl

theorem padZero_spec (d n : Nat) (hd : 0 < d) :
    (n < 10 ^ d → ∃ s, Padded d n s ∧ padZero d (decStr n) = some s) ∧
      (10 ^ d ≤ n → padZero d (decStr n) = none) := by
  have hn := decStr_numeral n
  have hl := numeral_length n d _ hn hd
  unfold padZero repeatZero
  constructor
  · intro h
    rw [if_pos (hl.mpr h)]
    refine ⟨_, ⟨?_, ?_, ?_⟩, rfl⟩
    · intro c hc
      rw [List.mem_append] at hc
      rcases hc with hc | hc
      · rw [(List.mem_replicate.mp hc).2]; decide
      · exact hn.1 c hc
    · have := hl.mpr h
      simp; omega
    · rw [decVal_append, decVal_zeros, hn.2.2.1]; simp
  · intro h
    rw [if_neg (fun hle => by have := hl.mp hle; omega)]; rfl

/-! ### fields as numbers -/

/-- an ID as a number -/
def idNum (id : List Byte) : Nat := setBytes id

theorem setBytes_append (l m : List Byte) :
    setBytes (l ++ m) = setBytes l * 256 ^ m.length + setBytes m := by
  have h : ∀ (m : List Byte) (n : Nat), m.foldl (fun n b => 256 * n + b.toNat) n
      = n * 256 ^ m.length + m.foldl (fun n b => 256 * n + b.toNat) 0 := by
    intro m
    induction m with
    | nil => intro n; simp
    | cons c m ih =>
      intro n
      rw [List.foldl_cons, List.foldl_cons, ih, ih (256 * 0 + c.toNat), List.length_cons,
        Nat.pow_succ]
      rw [Nat.add_mul, Nat.add_mul, Nat.mul_comm (256 ^ m.length) 256, ← Nat.mul_assoc,
        Nat.mul_comm n 256]
      omega
  unfold setBytes
  rw [List.foldl_append, h]

theorem setBytes_lt (l : List Byte) : setBytes l < 256 ^ l.length := by
  induction l with
  | nil => simp [setBytes]
  | cons c l ih =>
    have h3 := setBytes_append [c] l
    have h4 : setBytes [c] = c.toNat := by simp [setBytes]
    rw [List.singleton_append, h4] at h3
    rw [h3, List.length_cons, Nat.pow_succ]
    have h2 : c.toNat < 256 := c.isLt
    have : c.toNat * 256 ^ l.length ≤ 255 * 256 ^ l.length := Nat.mul_le_mul_right _ (by omega)
    omega

theorem setBytes_cons (c : Byte) (l : List Byte) :
    setBytes (c :: l) = c.toNat * 256 ^ l.length + setBytes l := by
  have h3 := setBytes_append [c] l
  have h4 : setBytes [c] = c.toNat := by simp [setBytes]
  rw [List.singleton_append, h4] at h3
  exact h3

theorem idBit_num (id : List Byte) (k : Nat) (h : k < 8 * id.length) :
    (idBit id k).toNat = setBytes id / 2 ^ (8 * id.length - 1 - k) % 2 := by
  induction id generalizing k with
  | nil => simp at h
  | cons c l ih =>
    rw [List.length_cons] at h
    rw [setBytes_cons, List.length_cons]
    have h256 : (256 : Nat) ^ l.length = 2 ^ (8 * l.length) := by
      rw [Nat.pow_mul]
    have hlt := setBytes_lt l
    rw [h256] at hlt ⊢
    by_cases hk : k < 8
    · have e : 8 * (l.length + 1) - 1 - k = 8 * l.length + (7 - k) := by omega
      have hpos : 0 < 2 ^ (8 * l.length) := Nat.pow_pos (by omega)
      rw [e, Nat.pow_add, ← Nat.div_div_eq_div_mul, Nat.mul_comm, Nat.mul_add_div hpos,
        Nat.div_eq_of_lt hlt, Nat.add_zero]
      have h0 : k / 8 = 0 := by omega
      unfold idBit
      rw [h0]
      simp only [List.getElem?_cons_zero]
      have h1 : k % 8 = k := by omega
      rw [h1, BitVec.getMsbD, BitVec.getLsbD, Nat.testBit_eq_decide_div_mod_eq]
      have h2 : 8 - 1 - k = 7 - k := by omega
      rw [h2]
      have : c.toNat / 2 ^ (7 - k) % 2 < 2 := Nat.mod_lt _ (by omega)
      by_cases hh : c.toNat / 2 ^ (7 - k) % 2 = 1
      · simp [hh, hk]
      · have : c.toNat / 2 ^ (7 - k) % 2 = 0 := by omega
        simp [this]
    · have hrec := ih (k - 8) (by omega)
      have e : idBit (c :: l) k = idBit l (k - 8) := by
        unfold idBit
        have h1 : k / 8 = (k - 8) / 8 + 1 := by omega
        have h2 : k % 8 = (k - 8) % 8 := by omega
        rw [h1, h2, List.getElem?_cons_succ]
      rw [e, hrec]
      have e2 : 8 * (l.length + 1) - 1 - k = 8 * l.length - 1 - (k - 8) := by omega
      rw [e2]
      have hm : 8 * l.length - 1 - (k - 8) + 1 ≤ 8 * l.length := by omega
      generalize 8 * l.length - 1 - (k - 8) = m at hm
      obtain ⟨q, hq⟩ : ∃ q, 8 * l.length = m + 1 + q := ⟨8 * l.length - (m + 1), by omega⟩
      rw [hq, Nat.pow_add, Nat.pow_succ]
      have hpos : 0 < 2 ^ m := Nat.pow_pos (by omega)
      have : c.toNat * (2 ^ m * 2 * 2 ^ q) + setBytes l
          = 2 ^ m * (2 * (c.toNat * 2 ^ q)) + setBytes l := by
        congr 1
        rw [Nat.mul_assoc, Nat.mul_left_comm, Nat.mul_left_comm c.toNat 2]
      rw [this, Nat.mul_add_div hpos]
      omega

theorem field_num (id : List Byte) (s n : Nat) (h : s + n ≤ 8 * id.length) :
    field id s n = setBytes id / 2 ^ (8 * id.length - s - n) % 2 ^ n := by
  unfold field
  induction n with
  | zero => simp [bitsVal, Nat.mod_one]
  | succ n ih =>
    unfold bitsVal
    rw [ih (by omega), idBit_num id (s + n) (by omega)]
    have e1 : 8 * id.length - s - n = (8 * id.length - s - (n + 1)) + 1 := by omega
    have e2 : 8 * id.length - 1 - (s + n) = 8 * id.length - s - (n + 1) := by omega
    rw [e1, e2, Nat.pow_succ, ← Nat.div_div_eq_div_mul]
    generalize setBytes id / 2 ^ (8 * id.length - s - (n + 1)) = x
    rw [Nat.pow_succ, Nat.mul_comm (2 ^ n) 2, Nat.mod_mul]
    omega

/-! ### byte operations -/

theorem and_mask (x : Byte) (k : Nat) (hk : k ≤ 8) :
    (x &&& BitVec.ofNat 8 (2 ^ k - 1)).toNat = x.toNat % 2 ^ k := by
  have : 2 ^ k ≤ 2 ^ 8 := Nat.pow_le_pow_right (by omega) hk
  have hp : 0 < 2 ^ k := Nat.pow_pos (by omega)
  rw [BitVec.toNat_and, BitVec.toNat_ofNat, Nat.mod_eq_of_lt (by omega),
    Nat.and_two_pow_sub_one_eq_mod]

theorem shift_or (x y : Byte) (k s : Nat) (hks : k + s ≤ 8) :
    ((x &&& BitVec.ofNat 8 (2 ^ k - 1)) <<< s ||| y >>> (8 - s)).toNat
      = x.toNat % 2 ^ k * 2 ^ s + y.toNat / 2 ^ (8 - s) := by
  have h1 := and_mask x k (by omega)
  have hb : x.toNat % 2 ^ k < 2 ^ k := Nat.mod_lt _ (Nat.pow_pos (by omega))
  have hlt : x.toNat % 2 ^ k * 2 ^ s < 2 ^ 8 := by
    have h2 : x.toNat % 2 ^ k * 2 ^ s < 2 ^ k * 2 ^ s :=
      Nat.mul_lt_mul_of_pos_right hb (Nat.pow_pos (by omega))
    rw [← Nat.pow_add] at h2
    exact Nat.lt_of_lt_of_le h2 (Nat.pow_le_pow_right (by omega) hks)
  have hy : y.toNat / 2 ^ (8 - s) < 2 ^ s := by
    rw [Nat.div_lt_iff_lt_mul (Nat.pow_pos (by omega)), ← Nat.pow_add]
    have : s + (8 - s) = 8 := by omega
    rw [this]; exact y.isLt
  rw [BitVec.toNat_or, BitVec.toNat_shiftLeft, BitVec.toNat_ushiftRight, h1,
    Nat.shiftLeft_eq, Nat.mod_eq_of_lt hlt, Nat.shiftRight_eq_div_pow]
  rw [← Nat.shiftLeft_eq, Nat.shiftLeft_add_eq_or_of_lt hy]

theorem list12 (id : List Byte) (h : id.length = 12) :
    ∃ a0 a1 a2 a3 a4 a5 a6 a7 a8 a9 a10 a11, id = [a0, a1, a2, a3, a4, a5, a6, a7, a8, a9, a10, a11] := by
  match id, h with
  | [a0, a1, a2, a3, a4, a5, a6, a7, a8, a9, a10, a11], _ =>
    exact ⟨a0, a1, a2, a3, a4, a5, a6, a7, a8, a9, a10, a11, rfl⟩

/-- all shapes of byte expression in `buildEPC` -/
theorem so2_6 (x y : Byte) : ((x &&& 3#8) <<< 6 ||| y >>> 2).toNat = x.toNat % 4 * 64 + y.toNat / 4 :=
  shift_or x y 2 6 (by omega)
theorem so2_3 (x y : Byte) : ((x &&& 3#8) <<< 3 ||| y >>> 5).toNat = x.toNat % 4 * 8 + y.toNat / 32 :=
  shift_or x y 2 3 (by omega)
theorem so5_3 (x y : Byte) : ((x &&& 31#8) <<< 3 ||| y >>> 5).toNat = x.toNat % 32 * 8 + y.toNat / 32 :=
  shift_or x y 5 3 (by omega)
theorem so2_4 (x y : Byte) : ((x &&& 3#8) <<< 4 ||| y >>> 4).toNat = x.toNat % 4 * 16 + y.toNat / 16 :=
  shift_or x y 2 4 (by omega)
theorem so4_4 (x y : Byte) : ((x &&& 15#8) <<< 4 ||| y >>> 4).toNat = x.toNat % 16 * 16 + y.toNat / 16 :=
  shift_or x y 4 4 (by omega)
theorem so2_1 (x y : Byte) : ((x &&& 3#8) <<< 1 ||| y >>> 7).toNat = x.toNat % 4 * 2 + y.toNat / 128 :=
  shift_or x y 2 1 (by omega)
theorem so7_1 (x y : Byte) : ((x &&& 127#8) <<< 1 ||| y >>> 7).toNat = x.toNat % 128 * 2 + y.toNat / 128 :=
  shift_or x y 7 1 (by omega)
theorem so2_2 (x y : Byte) : ((x &&& 3#8) <<< 2 ||| y >>> 6).toNat = x.toNat % 4 * 4 + y.toNat / 64 :=
  shift_or x y 2 2 (by omega)
theorem so6_2 (x y : Byte) : ((x &&& 63#8) <<< 2 ||| y >>> 6).toNat = x.toNat % 64 * 4 + y.toNat / 64 :=
  shift_or x y 6 2 (by omega)
theorem so5_2 (x y : Byte) : ((x &&& 31#8) <<< 2 ||| y >>> 6).toNat = x.toNat % 32 * 4 + y.toNat / 64 :=
  shift_or x y 5 2 (by omega)
theorem so4_2 (x y : Byte) : ((x &&& 15#8) <<< 2 ||| y >>> 6).toNat = x.toNat % 16 * 4 + y.toNat / 64 :=
  shift_or x y 4 2 (by omega)
theorem and3 (x : Byte) : (x &&& 3#8).toNat = x.toNat % 4 := and_mask x 2 (by omega)
theorem and15 (x : Byte) : (x &&& 15#8).toNat = x.toNat % 16 := and_mask x 4 (by omega)
theorem and31 (x : Byte) : (x &&& 31#8).toNat = x.toNat % 32 := and_mask x 5 (by omega)
theorem and63 (x : Byte) : (x &&& 63#8).toNat = x.toNat % 64 := and_mask x 6 (by omega)
theorem and127 (x : Byte) : (x &&& 127#8).toNat = x.toNat % 128 := and_mask x 7 (by omega)
theorem shr6 (x : Byte) : (x >>> 6).toNat = x.toNat / 64 := by
  rw [BitVec.toNat_ushiftRight, Nat.shiftRight_eq_div_pow]
theorem shr2 (x : Byte) : (x >>> 2).toNat = x.toNat / 4 := by
  rw [BitVec.toNat_ushiftRight, Nat.shiftRight_eq_div_pow]
theorem and28 (x : Byte) : ((x &&& 28#8) >>> 2).toNat = x.toNat / 4 % 8 := by
  have : (x &&& 28#8) >>> 2 = x >>> 2 &&& 7#8 := by
    rw [BitVec.ushiftRight_and_distrib]; rfl
  rw [this, and_mask (x >>> 2) 3 (by omega), shr2]

/-- company prefix of every partition -/
theorem cpBytes_field (id : List Byte) (h : id.length = 12) (p : Nat) (hp : p < 7) :
    setBytes (cpBytes (companyBits p) (byteAt id)) = field id 14 (companyBits p) := by
  rw [field_num id _ _ (by
    rw [h]; revert p; decide)]
  obtain ⟨a0, a1, a2, a3, a4, a5, a6, a7, a8, a9, a10, a11, rfl⟩ := list12 id h
  have b1 := a1.isLt; have b2 := a2.isLt; have b3 := a3.isLt; have b4 := a4.isLt
  have b5 := a5.isLt; have b6 := a6.isLt; have b7 := a7.isLt; have b8 := a8.isLt
  have b9 := a9.isLt; have b10 := a10.isLt; have b11 := a11.isLt; have b0 := a0.isLt
  rcases (by omega : p = 0 ∨ p = 1 ∨ p = 2 ∨ p = 3 ∨ p = 4 ∨ p = 5 ∨ p = 6)
    with rfl | rfl | rfl | rfl | rfl | rfl | rfl <;>
  simp only [companyBits, List.getD_cons_zero, List.getD_cons_succ, cpBytes, byteAt,
    List.getElem?_cons_zero, List.getElem?_cons_succ, Option.getD_some, setBytes, List.foldl_cons,
    List.foldl_nil, List.length_cons, List.length_nil, so2_6, so2_3, so5_3, so2_4, so4_4, so2_1,
    so7_1, so2_2, so6_2, and3] <;> omega

theorem refBytes_field (id : List Byte) (h : id.length = 12) (p : Nat) (hp : p < 7) :
    setBytes (refBytes (companyBits p) (byteAt id))
      = field id (14 + companyBits p) (44 - companyBits p) := by
  rw [field_num id _ _ (by
    rw [h]; revert p; decide)]
  obtain ⟨a0, a1, a2, a3, a4, a5, a6, a7, a8, a9, a10, a11, rfl⟩ := list12 id h
  have b1 := a1.isLt; have b2 := a2.isLt; have b3 := a3.isLt; have b4 := a4.isLt
  have b5 := a5.isLt; have b6 := a6.isLt; have b7 := a7.isLt; have b8 := a8.isLt
  have b9 := a9.isLt; have b10 := a10.isLt; have b11 := a11.isLt; have b0 := a0.isLt
  rcases (by omega : p = 0 ∨ p = 1 ∨ p = 2 ∨ p = 3 ∨ p = 4 ∨ p = 5 ∨ p = 6)
    with rfl | rfl | rfl | rfl | rfl | rfl | rfl <;>
  simp only [companyBits, List.getD_cons_zero, List.getD_cons_succ, refBytes, byteAt,
    List.getElem?_cons_zero, List.getElem?_cons_succ, Option.getD_some, setBytes, List.foldl_cons,
    List.foldl_nil, List.length_cons, List.length_nil, so2_2, so6_2, so5_2, so4_2, and127,
    shr6] <;> omega

theorem extBytes_field (id : List Byte) (h : id.length = 12) (p : Nat) (hp : p < 7) :
    setBytes (extBytes (companyBits p) (byteAt id))
      = field id (14 + companyBits p) (58 - companyBits p) := by
  rw [field_num id _ _ (by
    rw [h]; revert p; decide)]
  obtain ⟨a0, a1, a2, a3, a4, a5, a6, a7, a8, a9, a10, a11, rfl⟩ := list12 id h
  have b1 := a1.isLt; have b2 := a2.isLt; have b3 := a3.isLt; have b4 := a4.isLt
  have b5 := a5.isLt; have b6 := a6.isLt; have b7 := a7.isLt; have b8 := a8.isLt
  have b9 := a9.isLt; have b10 := a10.isLt; have b11 := a11.isLt; have b0 := a0.isLt
  rcases (by omega : p = 0 ∨ p = 1 ∨ p = 2 ∨ p = 3 ∨ p = 4 ∨ p = 5 ∨ p = 6)
    with rfl | rfl | rfl | rfl | rfl | rfl | rfl <;>
  simp only [companyBits, List.getD_cons_zero, List.getD_cons_succ, extBytes, byteAt,
    List.getElem?_cons_zero, List.getElem?_cons_succ, Option.getD_some, setBytes, List.foldl_cons,
    List.foldl_nil, List.length_cons, List.length_nil, and3, and15,
    and31, and63, and127] <;> omega

theorem iarBytes_field (id : List Byte) (h : id.length = 12) (p : Nat) (hp : p < 7) :
    setBytes (iarBytes (companyBits p) (byteAt id))
      = field id (14 + companyBits p) (82 - companyBits p) := by
  rw [field_num id _ _ (by
    rw [h]; revert p; decide)]
  obtain ⟨a0, a1, a2, a3, a4, a5, a6, a7, a8, a9, a10, a11, rfl⟩ := list12 id h
  have b1 := a1.isLt; have b2 := a2.isLt; have b3 := a3.isLt; have b4 := a4.isLt
  have b5 := a5.isLt; have b6 := a6.isLt; have b7 := a7.isLt; have b8 := a8.isLt
  have b9 := a9.isLt; have b10 := a10.isLt; have b11 := a11.isLt; have b0 := a0.isLt
  rcases (by omega : p = 0 ∨ p = 1 ∨ p = 2 ∨ p = 3 ∨ p = 4 ∨ p = 5 ∨ p = 6)
    with rfl | rfl | rfl | rfl | rfl | rfl | rfl <;>
  simp only [companyBits, List.getD_cons_zero, List.getD_cons_succ, iarBytes, byteAt,
    List.getElem?_cons_zero, List.getElem?_cons_succ, Option.getD_some, setBytes, List.foldl_cons,
    List.foldl_nil, List.length_cons, List.length_nil, and3, and15,
    and31, and63, and127] <;> omega

theorem serialBytes_field (id : List Byte) (h : id.length = 12) :
    setBytes (serialBytes (byteAt id)) = field id 58 38 := by
  rw [field_num id _ _ (by rw [h]; decide)]
  obtain ⟨a0, a1, a2, a3, a4, a5, a6, a7, a8, a9, a10, a11, rfl⟩ := list12 id h
  have b1 := a1.isLt; have b2 := a2.isLt; have b3 := a3.isLt; have b4 := a4.isLt
  have b5 := a5.isLt; have b6 := a6.isLt; have b7 := a7.isLt; have b8 := a8.isLt
  have b9 := a9.isLt; have b10 := a10.isLt; have b11 := a11.isLt; have b0 := a0.isLt
  simp only [serialBytes, byteAt,
    List.getElem?_cons_zero, List.getElem?_cons_succ, Option.getD_some, setBytes, List.foldl_cons,
    List.foldl_nil, List.length_cons, List.length_nil, and63]
  omega

theorem partition_field (id : List Byte) (h : id.length = 12) :
    ((byteAt id 1 &&& 28#8) >>> 2).toNat = field id 11 3 := by
  rw [field_num id _ _ (by rw [h]; decide)]
  obtain ⟨a0, a1, a2, a3, a4, a5, a6, a7, a8, a9, a10, a11, rfl⟩ := list12 id h
  have b1 := a1.isLt; have b2 := a2.isLt; have b3 := a3.isLt; have b4 := a4.isLt
  have b5 := a5.isLt; have b6 := a6.isLt; have b7 := a7.isLt; have b8 := a8.isLt
  have b9 := a9.isLt; have b10 := a10.isLt; have b11 := a11.isLt; have b0 := a0.isLt
  rw [and28]
  simp only [byteAt,
    List.getElem?_cons_zero, List.getElem?_cons_succ, Option.getD_some, setBytes, List.foldl_cons,
    List.foldl_nil, List.length_cons, List.length_nil]
  omega

theorem field_lt (id : List Byte) (s n : Nat) : field id s n < 2 ^ n := by
  unfold field
  induction n with
  | zero => simp [bitsVal]
  | succ n ih =>
    unfold bitsVal
    rw [Nat.pow_succ]
    have : (idBit id (s + n)).toNat < 2 := Bool.toNat_lt _
    omega

/-- a partition table of the code against the GS1 table: bits `w` of both fields together, `digits p`
    digits of the second -/
theorem partitionRow_spec (table : List Row) (w : Nat) (digits : Nat → Nat)
    (ht : table = (List.range 7).map fun p =>
      ⟨12 - p, p, companyBits p, w - companyBits p, digits p⟩)
    (id : List Byte) (h : id.length = 12) :
    partitionRow table (byteAt id) =
      if field id 11 3 < 7 then
        some ⟨12 - field id 11 3, field id 11 3, companyBits (field id 11 3),
          w - companyBits (field id 11 3), digits (field id 11 3)⟩
      else none := by
  unfold partitionRow
  rw [partition_field id h]
  have hlt := field_lt id 11 3
  generalize field id 11 3 = p at hlt
  subst ht
  rcases (by omega : p = 0 ∨ p = 1 ∨ p = 2 ∨ p = 3 ∨ p = 4 ∨ p = 5 ∨ p = 6 ∨ p = 7)
    with rfl | rfl | rfl | rfl | rfl | rfl | rfl | rfl <;> rfl

/-! ### the four schemes -/

theorem cpText_spec (id : List Byte) (h : id.length = 12) (p : Nat) (hp : p < 7) (r : Row)
    (h1 : r.cpLength = 12 - p) (h2 : r.cpBits = companyBits p) :
    (field id 14 (companyBits p) < 10 ^ (12 - p) →
      ∃ c, Padded (12 - p) (field id 14 (companyBits p)) c ∧
        cpText r (byteAt id) = some (c ++ ".".toList)) ∧
    (10 ^ (12 - p) ≤ field id 14 (companyBits p) → cpText r (byteAt id) = none) := by
  unfold cpText
  rw [h1, h2, cpBytes_field id h p hp]
  obtain ⟨s1, s2⟩ := padZero_spec (12 - p) (field id 14 (companyBits p)) (by omega)
  refine ⟨fun hlt => ?_, fun hle => by rw [s2 hle]; rfl⟩
  obtain ⟨c, hc, he⟩ := s1 hlt
  exact ⟨c, hc, by rw [he]; rfl⟩

/-! ### six-bit characters -/

theorem bitsVal_congr (f g : Nat → Bool) (s t n : Nat) (h : ∀ i < n, f (s + i) = g (t + i)) :
    bitsVal f s n = bitsVal g t n := by
  induction n with
  | zero => rfl
  | succ n ih =>
    unfold bitsVal
    rw [ih (fun i hi => h i (by omega)), h n (by omega)]

theorem bitsVal_add (f : Nat → Bool) (s a b : Nat) :
    bitsVal f s (a + b) = bitsVal f s a * 2 ^ b + bitsVal f (s + a) b := by
  induction b with
  | zero => simp [bitsVal]
  | succ b ih =>
    have e : ∀ s n, bitsVal f s (n + 1) = 2 * bitsVal f s n + (f (s + n)).toNat := fun _ _ => rfl
    rw [← Nat.add_assoc, e, e]
    rw [ih, Nat.pow_succ, Nat.add_assoc, Nat.mul_add, ← Nat.mul_assoc, Nat.mul_comm (2 ^ b) 2,
      ← Nat.mul_assoc, Nat.mul_comm 2 (bitsVal f s a), ← Nat.add_assoc s a b]
    omega

/-- bits within one byte -/
theorem field_byte (id : List Byte) (y k n : Nat) (h : k + n ≤ 8) :
    field id (8 * y + k) n = (byteAt id y).toNat / 2 ^ (8 - k - n) % 2 ^ n := by
  have h1 := field_num [byteAt id y] k n (by simpa using h)
  simp only [List.length_singleton, Nat.mul_one] at h1
  have h2 : setBytes [byteAt id y] = (byteAt id y).toNat := by simp [setBytes]
  rw [h2] at h1
  rw [← h1]
  unfold field
  apply bitsVal_congr
  intro i hi
  unfold idBit
  have e1 : (8 * y + k + i) / 8 = y := by omega
  have e2 : (8 * y + k + i) % 8 = k + i := by omega
  have e3 : (k + i) / 8 = 0 := by omega
  have e4 : (k + i) % 8 = k + i := by omega
  rw [e1, e2, e3, e4, List.getElem?_cons_zero]
  dsimp only
  unfold byteAt
  cases id[y]? with
  | none => simp
  | some b => rfl

/-- the six bits before the adjustment -/
def rawSix (at' : Nat → Byte) (offset : Nat) : Byte :=
  match offset % 8 with
  | 0 => (252#8 &&& at' (offset / 8)) >>> 2
  | 2 => 63#8 &&& at' (offset / 8)
  | 4 => (15#8 &&& at' (offset / 8)) <<< 2 ||| (192#8 &&& at' (offset / 8 + 1)) >>> 6
  | 6 => (3#8 &&& at' (offset / 8)) <<< 4 ||| (240#8 &&& at' (offset / 8 + 1)) >>> 4
  | _ => 0#8

theorem rawSix_field (id : List Byte) (i : Nat) :
    (rawSix (byteAt id) (6 * i)).toNat = field id (6 * i) 6 := by
  unfold rawSix
  have hm : 6 * i % 8 = 0 ∨ 6 * i % 8 = 2 ∨ 6 * i % 8 = 4 ∨ 6 * i % 8 = 6 := by omega
  have hd : 6 * i = 8 * (6 * i / 8) + 6 * i % 8 := by omega
  generalize 6 * i / 8 = y at hd
  rcases hm with h | h | h | h
  · rw [h, hd, h, field_byte id y 0 6 (by omega)]
    change ((252#8 &&& byteAt id y) >>> 2).toNat = _
    have : (252#8 &&& byteAt id y) >>> 2 = byteAt id y >>> 2 &&& 63#8 := by
      rw [BitVec.ushiftRight_and_distrib, BitVec.and_comm]; rfl
    rw [this, and63, shr2]
  · rw [h, hd, h, field_byte id y 2 6 (by omega)]
    change (63#8 &&& byteAt id y).toNat = _
    rw [BitVec.and_comm, and63]
    omega
  · rw [h, hd, h]
    change ((15#8 &&& byteAt id y) <<< 2 ||| (192#8 &&& byteAt id (y + 1)) >>> 6).toNat = _
    have e : (192#8 &&& byteAt id (y + 1)) >>> 6 = byteAt id (y + 1) >>> 6 := by
      apply BitVec.eq_of_toNat_eq
      rw [BitVec.ushiftRight_and_distrib]
      have : 192#8 >>> 6 = BitVec.ofNat 8 (2 ^ 2 - 1) := rfl
      rw [this, BitVec.and_comm, and_mask _ 2 (by omega), shr6]
      have := (byteAt id (y + 1)).isLt
      omega
    rw [e, BitVec.and_comm, so4_2]
    unfold field
    rw [bitsVal_add _ (8 * y + 4) 4 2]
    have f1 := field_byte id y 4 4 (by omega)
    have f2 := field_byte id (y + 1) 0 2 (by omega)
    unfold field at f1 f2
    have e2 : 8 * y + 4 + 4 = 8 * (y + 1) + 0 := by omega
    rw [e2, f1, f2]
    have := (byteAt id (y + 1)).isLt
    omega
  · rw [h, hd, h]
    change ((3#8 &&& byteAt id y) <<< 4 ||| (240#8 &&& byteAt id (y + 1)) >>> 4).toNat = _
    have e : (240#8 &&& byteAt id (y + 1)) >>> 4 = byteAt id (y + 1) >>> 4 := by
      apply BitVec.eq_of_toNat_eq
      rw [BitVec.ushiftRight_and_distrib]
      have : 240#8 >>> 4 = BitVec.ofNat 8 (2 ^ 4 - 1) := rfl
      rw [this, BitVec.and_comm, and_mask _ 4 (by omega), BitVec.toNat_ushiftRight,
        Nat.shiftRight_eq_div_pow]
      have := (byteAt id (y + 1)).isLt
      omega
    rw [e, BitVec.and_comm, so2_4]
    unfold field
    rw [bitsVal_add _ (8 * y + 6) 2 4]
    have f1 := field_byte id y 6 2 (by omega)
    have f2 := field_byte id (y + 1) 0 4 (by omega)
    unfold field at f1 f2
    have e2 : 8 * y + 6 + 2 = 8 * (y + 1) + 0 := by omega
    rw [e2, f1, f2]
    have := (byteAt id (y + 1)).isLt
    omega

/-- the adjustment of six bits to a character code -/
theorem sixAdjust : ∀ c : Byte, c.toNat < 64 →
    (if (32#8 &&& c) ≠ 32#8 then c ||| 64#8 else c).toNat = if c.toNat < 32 then 64 + c.toNat else c.toNat := by
  decide +kernel

theorem sixBits_field (id : List Byte) (i : Nat) :
    (sixBits (byteAt id) (6 * i)).toNat =
      if field id (6 * i) 6 < 32 then 64 + field id (6 * i) 6 else field id (6 * i) 6 := by
  have h : sixBits (byteAt id) (6 * i) = (if (32#8 &&& rawSix (byteAt id) (6 * i)) ≠ 32#8
      then rawSix (byteAt id) (6 * i) ||| 64#8 else rawSix (byteAt id) (6 * i)) := rfl
  have hlt := field_lt id (6 * i) 6
  rw [← rawSix_field] at hlt
  rw [h, sixAdjust _ (by omega), rawSix_field]

end Gosstrak
