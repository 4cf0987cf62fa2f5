import Verif.Proofs.Encode
import Verif.Props.Translate
import Verif.Props.Filter

namespace Gosstrak

theorem sixBits_cons (x : Binutil) (c : Char) (s : Str) :
    x.sixBits (c :: s) = x.sixBit c ++ x.sixBits s := rfl

theorem sixBits_append (x : Binutil) (s t : Str) :
    x.sixBits (s ++ t) = x.sixBits s ++ x.sixBits t := by
  unfold Binutil.sixBits; rw [List.flatMap_append]

theorem sixBits_bits (x : Binutil) (hx : x.Ok) (s : Str) (h : IsSixBitOrSpace s) :
    IsBitStr (x.sixBits s) ∧ (x.sixBits s).length = 6 * s.length := by
  induction s with
  | nil => exact ⟨fun c hc => by (cases hc), rfl⟩
  | cons c s ih =>
    have hc := h c List.mem_cons_self
    have h6 := hx.sixBit c hc.1 hc.2
    obtain ⟨i1, i2⟩ := ih fun d hd => h d (List.mem_cons_of_mem _ hd)
    rw [sixBits_cons]
    refine ⟨h6.1.append i1, ?_⟩
    rw [List.length_append, h6.2.1, i2, List.length_cons]; omega

theorem sixBits_fields (x : Binutil) (hx : x.Ok) (s : Str) (h : IsSixBitOrSpace s) (o : Nat)
    (id : List Byte) (hc : Carries (x.sixBits s) o id) (i : Nat) (c : Char) (hi : s[i]? = some c) :
    field id (o + 6 * i) 6 = c.toNat % 64 := by
  induction s generalizing o i with
  | nil => simp at hi
  | cons d s ih =>
    have hd := h d List.mem_cons_self
    have h6 := hx.sixBit d hd.1 hd.2
    rw [sixBits_cons, carries_append, carries_padded h6, h6.2.1] at hc
    cases i with
    | zero =>
      simp only [List.getElem?_cons_zero, Option.some.injEq] at hi
      subst hi
      exact hc.1
    | succ i =>
      rw [List.getElem?_cons_succ] at hi
      have := ih (fun d hd => h d (List.mem_cons_of_mem _ hd)) (o + 6) hc.2 i hi
      rw [← this]
      congr 1; omega

theorem sixBitChar_mod (n : Nat) (h1 : 32 ≤ n) (h2 : n < 96) :
    sixBitChar (n % 64) = if n = 32 then none else some (Char.ofNat n) := by
  unfold sixBitChar
  by_cases h : n = 32
  · subst h; rfl
  · rw [if_neg h, if_neg (by omega)]
    congr 2
    split <;> omega

/-- the characters the padding is made of -/
def padBits (k : Nat) : Str := (List.range k).map fun i => ("100000".toList[i % 6]?).getD '0'

theorem pad6Bit_eq (bs : Str) : ∃ k, k < 16 ∧ (bs.length + k) % 16 = 0 ∧
    pad6Bit bs = (bs ++ padBits k, bs.length + k) := by
  unfold pad6Bit
  dsimp only
  split
  · exact ⟨16 - bs.length % 16, by omega, by omega, rfl⟩
  · refine ⟨0, by omega, by omega, ?_⟩
    simp [padBits]

theorem padBits_get (k i : Nat) (h : i < k) :
    (padBits k)[i]? = some (if i % 6 = 0 then '1' else '0') := by
  unfold padBits
  rw [List.getElem?_map, List.getElem?_range h, Option.map_some]
  congr 1
  have : ∀ j < 6, ("100000".toList[j]?).getD '0' = if j = 0 then '1' else '0' := by decide
  exact this (i % 6) (Nat.mod_lt _ (by omega))

theorem padBits_bits (k : Nat) : IsBitStr (padBits k) ∧ (padBits k).length = k := by
  constructor
  · intro c hc
    obtain ⟨i, hi⟩ := List.getElem?_of_mem hc
    have hk : i < k := by
      have := (List.getElem?_eq_some_iff.mp hi).1
      simpa [padBits] using this
    rw [padBits_get k i hk] at hi
    simp only [Option.some.injEq] at hi
    subst hi
    split
    · exact Or.inr rfl
    · exact Or.inl rfl
  · simp [padBits]

/-- a whole group of padding bits is the space -/
theorem padBits_field (k o : Nat) (id : List Byte) (hc : Carries (padBits k) o id) (j : Nat)
    (hj : 6 * j + 6 ≤ k) : field id (o + 6 * j) 6 = 32 := by
  have key : ∀ i, i < k → idBit id (o + i) = decide (i % 6 = 0) := by
    intro i hi
    have := hc i _ (padBits_get k i hi) (by split <;> decide)
    by_cases h : i % 6 = 0
    · rw [if_pos h] at this
      rw [this.mp rfl]; simp [h]
    · rw [if_neg h] at this
      cases e : idBit id (o + i)
      · simp [h]
      · exact absurd (this.mpr e) (by decide)
  have k' : ∀ m, m < 6 → idBit id (o + 6 * j + m) = decide (m = 0) := by
    intro m hm
    rw [Nat.add_assoc, key _ (by omega)]
    congr 1
    simp only [eq_iff_iff]; omega
  unfold field
  simp only [bitsVal, k' 0 (by omega), k' 1 (by omega), k' 2 (by omega), k' 3 (by omega),
    k' 4 (by omega), k' 5 (by omega)]
  rfl

theorem filterMap_range_get {α β : Type} (s : List α) (f : Nat → Option β) (g : α → Option β)
    (h : ∀ i c, s[i]? = some c → f i = g c) : (List.range s.length).filterMap f = s.filterMap g := by
  induction s generalizing f with
  | nil => rfl
  | cons c s ih =>
    rw [List.length_cons, List.range_succ_eq_map, List.filterMap_cons, List.filterMap_map,
      h 0 c rfl, List.filterMap_cons]
    have := ih (f ∘ Nat.succ) fun i d hi => h (i + 1) d (by simpa using hi)
    rw [this]

/-- what is read from padded six-bit characters -/
theorem sixBitText_padded (x : Binutil) (hx : x.Ok) (s : Str) (h : IsSixBitOrSpace s) (k : Nat)
    (id : List Byte) (hl : 8 * id.length = 6 * s.length + k)
    (hc : Carries (x.sixBits s ++ padBits k) 0 id) :
    sixBitText id = s.filter fun c => decide (c ≠ ' ') := by
  rw [carries_append, (sixBits_bits x hx s h).2] at hc
  have hdiv : 8 * id.length / 6 = s.length + k / 6 := by omega
  unfold sixBitText
  rw [hdiv, List.range_add, List.filterMap_append]
  have h2 : ((List.range (k / 6)).map (s.length + ·)).filterMap
      (fun i => sixBitChar (field id (6 * i) 6)) = [] := by
    rw [List.filterMap_map, List.filterMap_eq_nil_iff]
    intro j hj
    rw [List.mem_range] at hj
    have := padBits_field k _ id hc.2 j (by omega)
    have e : 6 * (s.length + j) = 0 + 6 * s.length + 6 * j := by omega
    simp only [Function.comp]
    rw [e, this]; rfl
  rw [h2, List.append_nil, filterMap_range_get s _ fun c => if c = ' ' then none else some c]
  · clear hl hdiv h2 hc h
    induction s with
    | nil => rfl
    | cons c s ih =>
      by_cases hcs : c = ' '
      · simp [hcs, ih]
      · simp [hcs, ih]
  · intro i c hi
    have := sixBits_fields x hx s h 0 id hc.1 i c hi
    rw [Nat.zero_add] at this
    have hm := h c (List.mem_of_getElem? hi)
    rw [this, sixBitChar_mod _ hm.1 hm.2, Char.ofNat_toNat]
    have : c.toNat = 32 ↔ c = ' ' := by
      constructor
      · intro h
        rw [← Char.ofNat_toNat c, h]
      · rintro rfl; rfl
    by_cases hcs : c = ' '
    · rw [if_pos (this.mpr hcs), if_pos hcs]
    · rw [if_neg (fun h => hcs (this.mp h)), if_neg hcs]

/-- padding and packing six-bit characters -/
theorem packISO_spec (x : Binutil) (hx : x.Ok) (s : Str) (h : IsSixBitOrSpace s) (hne : s ≠ []) :
    ∃ id n k, Binutil.packISO (x.sixBits s) = some (⟨id, [], []⟩, n) ∧ n = 8 * id.length ∧ n % 16 = 0 ∧
      6 * s.length ≤ n ∧ n < 6 * s.length + 16 ∧ 8 * id.length = 6 * s.length + k ∧
      Carries (x.sixBits s ++ padBits k) 0 id := by
  obtain ⟨hb, hbl⟩ := sixBits_bits x hx s h
  obtain ⟨k, h1, h2, h3⟩ := pad6Bit_eq (x.sixBits s)
  obtain ⟨pb, pl⟩ := padBits_bits k
  have hpos : 0 < s.length := List.length_pos_iff.mpr hne
  have hl8 : (x.sixBits s ++ padBits k).length = 8 * ((6 * s.length + k) / 8) := by
    rw [List.length_append, hbl, pl]; omega
  obtain ⟨id, e1, e2, e3⟩ := parseBin_bits (by omega) hl8 (hb.append pb)
  refine ⟨id, 6 * s.length + k, k, ?_, ?_, ?_, ?_, ?_, ?_, ?_⟩
  · unfold Binutil.packISO
    rw [h3]
    dsimp only
    rw [e1, hbl]; rfl
  · omega
  · omega
  · omega
  · omega
  · omega
  · intro i c hi _
    rw [Nat.zero_add, e3, hi]
    simp

end Gosstrak
