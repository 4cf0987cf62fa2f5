import Verif.Model.Load
import Verif.Spec.Load
import Verif.Proofs.Subs

namespace Gosstrak

/-- adding patterns to an entry -/
def appended (old : Option (List Str)) (new : List Str) : Option (List Str) :=
  if new = [] then old else some (old.getD [] ++ new)

theorem appended_append (old : Option (List Str)) (a b : List Str) :
    appended old (a ++ b) = appended (appended old a) b := by
  unfold appended
  by_cases ha : a = [] <;> by_cases hb : b = [] <;> simp [ha, hb]

theorem hasPrefix_iff (s p : Str) : hasPrefix s p = true ↔ p <+: s := by
  unfold hasPrefix
  exact List.isPrefixOf_iff_prefix

theorem loadPattern_get (uri : Str) (sub : Subs) (hm : IsMap sub) (pat q : Str) :
    IsMap (loadPattern uri sub pat) ∧ mapGet (loadPattern uri sub pat) q =
      if uri = q then appended (mapGet sub q)
        ([pat].filter fun p => decide ("urn:epc:pat:".toList <+: toLower p)) else mapGet sub q := by
  unfold loadPattern
  generalize "urn:epc:pat:".toList = P
  by_cases h : P <+: toLower pat
  · rw [if_pos ((hasPrefix_iff _ _).mpr h), List.filter_cons_of_pos (by simpa using h)]
    dsimp only
    cases hg : mapGet sub uri with
    | none =>
      refine ⟨isMap_mapSet (isMap_mapSet hm _ _) _ _, ?_⟩
      simp only [mapGet_mapSet, if_true]
      by_cases e : uri = q
      · subst e
        simp [hg, appended]
      · simp [e]
    | some l =>
      refine ⟨isMap_mapSet hm _ _, ?_⟩
      simp only [mapGet_mapSet]
      by_cases e : uri = q
      · subst e
        simp [hg, appended]
      · simp [e]
  · rw [if_neg (fun hp => h ((hasPrefix_iff _ _).mp hp)), List.filter_cons_of_neg (by simpa using h)]
    exact ⟨hm, by simp [appended]⟩

theorem loadPatterns_get (uri q : Str) : ∀ (pats : List Str) (sub : Subs), IsMap sub →
    IsMap (pats.foldl (loadPattern uri) sub) ∧ mapGet (pats.foldl (loadPattern uri) sub) q =
      if uri = q then appended (mapGet sub q)
        (pats.filter fun p => decide ("urn:epc:pat:".toList <+: toLower p)) else mapGet sub q
  | [], sub, hm => ⟨hm, by
      generalize "urn:epc:pat:".toList = P
      simp [appended]⟩
  | pat :: pats, sub, hm => by
    obtain ⟨h1, h2⟩ := loadPattern_get uri sub hm pat q
    obtain ⟨h3, h4⟩ := loadPatterns_get uri q pats _ h1
    refine ⟨h3, ?_⟩
    rw [List.foldl_cons, h4, h2]
    by_cases e : uri = q
    · rw [if_pos e, if_pos e, if_pos e, ← appended_append, ← List.filter_append]
      rfl
    · rw [if_neg e, if_neg e, if_neg e]

theorem length_splitOn (c : Char) : ∀ s : Str, (splitOn c s).length = s.count c + 1
  | [] => rfl
  | d :: s => by
    have ih := length_splitOn c s
    unfold splitOn
    by_cases h : d = c
    · rw [if_pos h, List.length_cons, ih, h, List.count_cons_self]
    · rw [if_neg h, List.count_cons_of_ne h, ← ih]
      cases hs : splitOn c s with
      | nil => exact absurd hs (splitOn_ne_nil c s)
      | cons a l => rfl

theorem toLower_colon {c : Char} (h : c.toLower = ':') : c = ':' := by
  unfold Char.toLower at h
  split at h
  · rename_i hu
    have h1 := congrArg (fun c : Char => c.val.toNat) h
    simp only [UInt32.toNat_add] at h1
    have e : (':' : Char).val.toNat = 58 := rfl
    have e2 : ('a'.val - 'A'.val).toNat = 32 := rfl
    rw [e, e2] at h1
    obtain ⟨h2, h3⟩ := hu
    have h2' : 65 ≤ c.val.toNat := UInt32.le_iff_toNat_le.mp h2
    have h3' : c.val.toNat ≤ 90 := UInt32.le_iff_toNat_le.mp h3
    omega
  · exact h

end Gosstrak
