import Verif.Model.Load
import Verif.Spec.Load
import Verif.Proofs.Load

namespace Gosstrak

/-! ## C65 -/

/-- A file is read without a panic, and a report URI has exactly the patterns of all its records in
    file order; a URI that does not start with `http`, and one without patterns, has no entry. URIs
    are compared in lower case. -/
theorem C65_loaded (records : List (List Str)) (h : ∀ r ∈ records, r ≠ []) :
    ∃ sub, loadRecords records = some sub ∧ IsMap sub ∧
      ∀ uri, mapGet sub uri = if "http".toList <+: uri ∧ recordPatterns records uri ≠ [] then
        some (recordPatterns records uri) else none := by
  have key : ∀ (records : List (List Str)) (sub : Subs), (∀ r ∈ records, r ≠ []) → IsMap sub →
      ∃ sub', records.foldlM loadRecord sub = some sub' ∧ IsMap sub' ∧ ∀ uri, mapGet sub' uri =
        if "http".toList <+: uri then appended (mapGet sub uri) (recordPatterns records uri)
        else mapGet sub uri := by
    intro records
    induction records with
    | nil => intro sub _ hm; exact ⟨sub, rfl, hm, fun uri => by
        rw [show recordPatterns [] uri = [] from rfl]
        generalize "http".toList = P
        simp [appended]⟩
    | cons r records ih =>
      intro sub hr hm
      cases r with
      | nil => exact absurd rfl (hr [] (by simp))
      | cons u pats =>
        rw [List.foldlM_cons]
        unfold loadRecord
        dsimp only
        have hpat : ∀ uri, recordPatterns ((u :: pats) :: records) uri =
            (if toLower u = uri then
              pats.filter fun p => decide ("urn:epc:pat:".toList <+: toLower p) else []) ++
              recordPatterns records uri := by
          intro uri
          unfold recordPatterns
          generalize "urn:epc:pat:".toList = P
          simp
        by_cases hh : "http".toList <+: toLower u
        · rw [if_pos ((hasPrefix_iff _ _).mpr hh)]
          obtain ⟨sub', h1, h2, h3⟩ := ih (pats.foldl (loadPattern (toLower u)) sub)
            (fun r hr' => hr r (by simp [hr'])) (loadPatterns_get _ [] pats sub hm).1
          refine ⟨sub', h1, h2, fun uri => ?_⟩
          rw [h3, (loadPatterns_get _ uri pats sub hm).2, hpat]
          by_cases e : toLower u = uri
          · rw [if_pos e, if_pos e, appended_append, ← e, if_pos hh, if_pos hh]
          · rw [if_neg e, if_neg e]
            rfl
        · rw [if_neg (fun hp => hh ((hasPrefix_iff _ _).mp hp))]
          obtain ⟨sub', h1, h2, h3⟩ := ih sub (fun r hr' => hr r (by simp [hr'])) hm
          refine ⟨sub', h1, h2, fun uri => ?_⟩
          rw [h3, hpat]
          by_cases hu : "http".toList <+: uri
          · rw [if_pos hu, if_pos hu, if_neg (show ¬ toLower u = uri from fun e => hh (e ▸ hu))]
            rfl
          · rw [if_neg hu, if_neg hu]
  obtain ⟨sub, h1, h2, h3⟩ := key records [] h (by simp [IsMap])
  refine ⟨sub, h1, h2, fun uri => ?_⟩
  rw [h3]
  unfold appended
  generalize "http".toList = P
  by_cases hu : P <+: uri <;> by_cases hp : recordPatterns records uri = [] <;>
    simp [hu, hp, mapGet]

example : loadRecords
    [["HTTP://a".toList, "urn:epc:pat:sgtin-96:3".toList, "junk".toList, "urn:epc:pat:sscc-96:1".toList],
      ["ftp://b".toList, "urn:epc:pat:giai-96:1".toList], ["http://c".toList],
      ["http://a".toList, "URN:epc:pat:giai-96:2".toList]] =
    some [("http://a".toList, ["urn:epc:pat:sgtin-96:3".toList, "urn:epc:pat:sscc-96:1".toList,
      "URN:epc:pat:giai-96:2".toList])] := by decide +kernel

/-- A pattern whose prefix is not in lower case never becomes a filter: it is split at more than one
    colon and dropped. -/
theorem C65_wrong_case_ignored (mk : Encoder) (sub : Subs) :
    toByteSubscriptions mk sub =
      toByteSubscriptions mk (sub.map fun e => (e.1, e.2.filter fun p => decide (¬ WrongCase p))) := by
  have one : ∀ (uri : Str) (b : FlatSubs) (pat : Str), WrongCase pat → storePattern mk uri b pat = b := by
    intro uri b pat ⟨h1, h2⟩
    have ht : trimPrefix pat "urn:epc:pat:".toList = pat := by
      unfold trimPrefix
      rw [if_neg (fun h => h2 ((hasPrefix_iff _ _).mp h))]
    have hc : 3 ≤ pat.count ':' := by
      have hl : ∀ s : Str, (toLower s).count ':' ≤ s.count ':' := by
        intro s
        induction s with
        | nil => simp [toLower]
        | cons c s ih =>
          unfold toLower at ih ⊢
          rw [List.map_cons]
          by_cases hc : c.toLower = ':'
          · rw [toLower_colon hc]
            rw [show Char.toLower ':' = ':' from by decide, List.count_cons_self, List.count_cons_self]
            omega
          · rw [List.count_cons_of_ne hc]
            exact Nat.le_trans ih List.count_le_count_cons
      have hp := h1.sublist.count_le ':'
      have := hl pat
      have e : "urn:epc:pat:".toList.count ':' = 3 := by decide
      omega
    unfold storePattern
    rw [ht]
    have hlen := length_splitOn ':' pat
    split
    · rename_i t f he
      rw [he] at hlen
      simp at hlen
      omega
    · rfl
  have many : ∀ (uri : Str) (pats : List Str) (b : FlatSubs), pats.foldl (storePattern mk uri) b =
      (pats.filter fun p => decide (¬ WrongCase p)).foldl (storePattern mk uri) b := by
    intro uri pats
    induction pats with
    | nil => intro b; rfl
    | cons p pats ih =>
      intro b
      by_cases hp : WrongCase p
      · rw [List.filter_cons_of_neg (by simpa using hp), List.foldl_cons, one uri b p hp]
        exact ih b
      · rw [List.filter_cons_of_pos (by simpa using hp), List.foldl_cons, List.foldl_cons]
        exact ih _
  unfold toByteSubscriptions
  generalize ([] : FlatSubs) = b
  induction sub generalizing b with
  | nil => rfl
  | cons e sub ih =>
    rw [List.map_cons, List.foldl_cons, List.foldl_cons, ih, many]

example : WrongCase "URN:epc:pat:giai-96:2".toList ∧ ¬ WrongCase "urn:epc:pat:giai-96:2".toList ∧
    toByteSubscriptions (fun t _ => some t)
      [("http://a".toList, ["URN:epc:pat:giai-96:2".toList, "urn:epc:pat:sscc-96:1".toList])] =
      [("sscc-96".toList, "http://a".toList)] := by decide +kernel

end Gosstrak
