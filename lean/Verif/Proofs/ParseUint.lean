import Verif.Spec.Encode

/-! `strconv.ParseUint` on a text that begins with some digits. -/
namespace Gosstrak

/-- value of digits in a base, behind a number -/
def baseVal (base : Nat) (n : Nat) (ds : List Nat) : Nat := ds.foldl (fun a d => base * a + d) n

theorem baseVal_le (base n : Nat) (hb : 0 < base) (ds : List Nat) : n ≤ baseVal base n ds := by
  induction ds generalizing n with
  | nil => exact Nat.le_refl _
  | cons d ds ih =>
    have h := ih (base * n + d)
    have h1 : n ≤ base * n + d := Nat.le_trans (Nat.le_mul_of_pos_left n hb) (Nat.le_add_right _ _)
    exact Nat.le_trans h1 h

theorem parseUintLoop_spec (val : Char → Option Nat) (base top : Nat) (hb : 0 < base) (t : Str)
    (ht : t = [] ∨ ∃ c t', t = c :: t' ∧ val c = none) (d : Str) :
    ∀ (ds : List Nat) (n : Nat), n ≤ top → d.map val = ds.map some →
    parseUintLoop val base top n (d ++ t) =
      if top < baseVal base n ds then some top else if t = [] then some (baseVal base n ds) else none := by
  induction d with
  | nil =>
    intro ds n hn hd
    have : ds = [] := by simpa using hd.symm
    subst this
    have e : baseVal base n [] = n := rfl
    rw [e, if_neg (by omega), List.nil_append]
    rcases ht with rfl | ⟨c, t', rfl, hc⟩
    · rw [if_pos rfl]; rfl
    · rw [if_neg (by simp)]
      unfold parseUintLoop
      rw [hc]
  | cons c d ih =>
    intro ds n hn hd
    match ds, hd with
    | [], hd => simp at hd
    | v :: ds, hd =>
      rw [List.map_cons, List.map_cons] at hd
      obtain ⟨e1, e2⟩ := List.cons.inj hd
      have e : baseVal base n (v :: ds) = baseVal base (base * n + v) ds := rfl
      rw [List.cons_append]
      unfold parseUintLoop
      rw [e1, e]
      dsimp only
      by_cases h : top < base * n + v
      · rw [if_pos h, if_pos (Nat.lt_of_lt_of_le h (baseVal_le base _ hb ds))]
      · rw [if_neg h]
        exact ih ds _ (by omega) e2

theorem parseUintLoop_le (val : Char → Option Nat) (base top : Nat) (s : Str) :
    ∀ n, n ≤ top → ∀ v, parseUintLoop val base top n s = some v → v ≤ top := by
  induction s with
  | nil => intro n hn v h; cases h; exact hn
  | cons c s ih =>
    intro n hn v h
    unfold parseUintLoop at h
    split at h
    · cases h
    · split at h
      · cases h; exact Nat.le_refl _
      · exact ih _ (by omega) v h

theorem parseUint_spec (val : Char → Option Nat) (base top : Nat) (hb : 0 < base) (d t : Str)
    (ht : t = [] ∨ ∃ c t', t = c :: t' ∧ val c = none) (ds : List Nat) (hd : d.map val = ds.map some) :
    parseUint val base top (d ++ t) =
      if top < baseVal base 0 ds then some top
      else if d ≠ [] ∧ t = [] then some (baseVal base 0 ds) else none := by
  unfold parseUint
  by_cases h : d ++ t = []
  · rw [if_pos (by rw [h]; rfl)]
    obtain ⟨h1, h2⟩ := List.append_eq_nil_iff.mp h
    have : ds = [] := by rw [h1] at hd; simpa using hd.symm
    subst this
    rw [if_neg (by show ¬ top < 0; omega), if_neg (fun hh => hh.1 h1)]
  · rw [if_neg (by simpa using h), parseUintLoop_spec val base top hb t ht d ds 0 (by omega) hd]
    by_cases hv : top < baseVal base 0 ds
    · rw [if_pos hv, if_pos hv]
    · rw [if_neg hv, if_neg hv]
      by_cases h2 : t = []
      · have : d ≠ [] := by intro e; exact h (by rw [e, h2]; rfl)
        rw [if_pos h2, if_pos ⟨this, h2⟩]
      · rw [if_neg h2, if_neg fun hh => h2 hh.2]

theorem decDigit_eq (c : Char) (h : '0' ≤ c ∧ c ≤ '9') : decDigit c = some (digitVal c) := by
  unfold decDigit
  rw [if_pos h]
  rfl

theorem map_decDigit (d : Str) (h : IsDigits d) : d.map decDigit = (d.map digitVal).map some := by
  rw [List.map_map]
  exact List.map_congr_left fun c hc => decDigit_eq c (h c hc)

theorem baseVal_decVal (d : Str) : baseVal 10 0 (d.map digitVal) = decVal d := by
  unfold baseVal decVal
  rw [List.foldl_map]

/-- a text that begins with the digits `d` and goes on with something else, if anything -/
theorem parseDigits_spec (d t : Str) (h : IsDigits d) (ht : ∀ c, t.head? = some c → ¬ ('0' ≤ c ∧ c ≤ '9')) :
    parseDigits (d ++ t) = if 4294967295 < decVal d then some 4294967295
      else if d ≠ [] ∧ t = [] then some (decVal d) else none := by
  unfold parseDigits
  rw [parseUint_spec decDigit 10 4294967295 (by omega) d t ?_ (d.map digitVal) (map_decDigit d h),
    baseVal_decVal]
  cases t with
  | nil => exact Or.inl rfl
  | cons c t' =>
    refine Or.inr ⟨c, t', rfl, ?_⟩
    unfold decDigit
    rw [if_neg (ht c rfl)]

end Gosstrak
