import Verif.Proofs.Filter

/-! Bit strings as prefixes of `bitsOf id`. -/
namespace Gosstrak

theorem length_bitsOf (id : List Byte) : (bitsOf id).length = 8 * id.length := by
  simp [bitsOf]

theorem bitsOf_getElem? (id : List Byte) (n : Nat) :
    (bitsOf id)[n]? = if n < 8 * id.length then some (if idBit id n then '1' else '0') else none := by
  unfold bitsOf
  rw [List.getElem?_map]
  by_cases h : n < 8 * id.length
  · rw [List.getElem?_range h, if_pos h]; rfl
  · rw [List.getElem?_eq_none (by simpa using h), if_neg h]; rfl

theorem isBitStr_bitsOf (id : List Byte) : IsBitStr (bitsOf id) := by
  intro c hc
  simp only [bitsOf, List.mem_map] at hc
  obtain ⟨n, -, rfl⟩ := hc
  split <;> simp

theorem IsBitStr.filterStr {s : Str} (h : IsBitStr s) : IsFilterStr s := fun c hc => by
  rcases h c hc with h | h <;> simp [h]

theorem IsBitStr.append {s t : Str} (hs : IsBitStr s) (ht : IsBitStr t) : IsBitStr (s ++ t) := by
  intro c hc
  rcases List.mem_append.mp hc with h | h
  · exact hs c h
  · exact ht c h

theorem IsBitStr.of_prefix {s t : Str} (ht : IsBitStr t) (h : s <+: t) : IsBitStr s :=
  fun c hc => ht c (h.subset hc)

theorem IsBitStr.of_append_right {s t : Str} (h : IsBitStr (s ++ t)) : IsBitStr t :=
  fun c hc => h c (by simp [hc])

theorem IsBitStr.of_append_left {s t : Str} (h : IsBitStr (s ++ t)) : IsBitStr s :=
  fun c hc => h c (by simp [hc])

theorem prefix_iff_getElem? {s t : Str} :
    s <+: t ↔ ∀ (i : Nat) (c : Char), s[i]? = some c → t[i]? = some c := by
  constructor
  · rintro ⟨r, rfl⟩ i c h
    rw [List.getElem?_append_left]
    · exact h
    · exact (List.getElem?_eq_some_iff.mp h).1
  · intro h
    rw [List.prefix_iff_eq_take]
    apply List.ext_getElem?
    intro i
    rw [List.getElem?_take]
    by_cases hi : i < s.length
    · have h1 : s[i]? = some s[i] := List.getElem?_eq_getElem hi
      rw [if_pos hi, h i _ h1, h1]
    · rw [if_neg hi, List.getElem?_eq_none (by omega)]

/-- carrying `k` right after `p` means that `p ++ k` starts the bits -/
theorem carries_iff_prefix {p k : Str} {id : List Byte} (hk : IsBitStr k)
    (hp : p <+: bitsOf id) (hlen : p.length + k.length ≤ 8 * id.length) :
    Carries k p.length id ↔ p ++ k <+: bitsOf id := by
  rw [prefix_iff_getElem?]
  constructor
  · intro h i c hi
    by_cases hlt : i < p.length
    · rw [List.getElem?_append_left hlt] at hi
      exact prefix_iff_getElem?.mp hp i c hi
    · rw [List.getElem?_append_right (by omega)] at hi
      have hb : i - p.length < k.length := (List.getElem?_eq_some_iff.mp hi).1
      have hc : c ∈ k := List.mem_of_getElem? hi
      have h2 := h (i - p.length) c hi (by rcases hk c hc with h | h <;> subst h <;> decide)
      rw [show p.length + (i - p.length) = i by omega] at h2
      rw [bitsOf_getElem?, if_pos (by omega)]
      rcases hk c hc with rfl | rfl
      · have : idBit id i = false := by
          cases hb : idBit id i with
          | false => rfl
          | true => exact absurd (h2.mpr hb) (by decide)
        simp [this]
      · simp [h2.mp rfl]
  · intro h i c hi hx
    have hb : i < k.length := (List.getElem?_eq_some_iff.mp hi).1
    have h2 := h (p.length + i) c (by
      rw [List.getElem?_append_right (by omega), show p.length + i - p.length = i by omega]
      exact hi)
    rw [bitsOf_getElem?, if_pos (by omega)] at h2
    have h2 := Option.some.inj h2
    cases hb : idBit id (p.length + i) with
    | true => simp [hb] at h2; simp [← h2]
    | false => simp [hb] at h2; subst h2; decide

/-- carrying `k` at `o` means that `k` starts the bits from there on -/
theorem carries_iff_drop {k : Str} {o : Nat} {id : List Byte} (hk : IsBitStr k)
    (hlen : o + k.length ≤ 8 * id.length) :
    Carries k o id ↔ k <+: (bitsOf id).drop o := by
  rw [prefix_iff_getElem?]
  constructor
  · intro h i c hi
    have hb : i < k.length := (List.getElem?_eq_some_iff.mp hi).1
    have hc : c ∈ k := List.mem_of_getElem? hi
    have h2 := h i c hi (by rcases hk c hc with h | h <;> subst h <;> decide)
    rw [List.getElem?_drop, bitsOf_getElem?, if_pos (by omega)]
    rcases hk c hc with rfl | rfl
    · have : idBit id (o + i) = false := by
        cases hb : idBit id (o + i) with
        | false => rfl
        | true => exact absurd (h2.mpr hb) (by decide)
      simp [this]
    · simp [h2.mp rfl]
  · intro h i c hi hx
    have hb : i < k.length := (List.getElem?_eq_some_iff.mp hi).1
    have h2 := h i c hi
    rw [List.getElem?_drop, bitsOf_getElem?, if_pos (by omega)] at h2
    have h2 := Option.some.inj h2
    cases hb : idBit id (o + i) with
    | true => simp [hb] at h2; simp [← h2]
    | false => simp [hb] at h2; subst h2; decide

theorem matchID_drop {k : Str} {o : Nat} {id : List Byte} (hk : IsBitStr k) (hc : Covers k o id) :
    (newFilter k o).matchID id = some (decide (k <+: (bitsOf id).drop o)) := by
  obtain ⟨r, h1, h2⟩ := matchID_newFilter hk.filterStr hc
  rw [h1]
  rw [carries_iff_drop hk hc.1] at h2
  congr 1
  cases r <;> simp_all

/-- matching a bit string that follows bits already known to agree -/
theorem matchID_prefix {p k : Str} {id : List Byte} (hk : IsBitStr k)
    (hp : p <+: bitsOf id) (hc : Covers k p.length id) :
    (newFilter k p.length).matchID id = some (decide (p ++ k <+: bitsOf id)) := by
  obtain ⟨r, h1, h2⟩ := matchID_newFilter hk.filterStr hc
  rw [h1]
  rw [carries_iff_prefix hk hp hc.1] at h2
  congr 1
  cases r <;> simp_all

theorem matchID_prefix0 {k : Str} {id : List Byte} (hk : IsBitStr k) (hc : Covers k 0 id) :
    (newFilter k 0).matchID id = some (decide (k <+: bitsOf id)) :=
  matchID_prefix (p := []) hk List.nil_prefix hc

end Gosstrak
