import Verif.Spec.Subs
import Verif.Proofs.Strings

/-! Helper lemmas about maps, splitting and `toByteSubscriptions`. -/
namespace Gosstrak

variable {α : Type}

theorem mapGet_mapSet (m : List (Str × α)) (k q : Str) (v : α) :
    mapGet (mapSet m k v) q = if k = q then some v else mapGet m q := by
  induction m with
  | nil => simp [mapSet, mapGet]
  | cons e m ih =>
    obtain ⟨a, w⟩ := e
    simp only [mapSet]
    by_cases h : a = k
    · subst h; simp only [if_true, mapGet]; split <;> rfl
    · simp only [h, if_false, mapGet, ih]
      by_cases h2 : a = q
      · subst h2; simp [Ne.symm h]
      · simp [h2]

theorem mapGet_mapDelete (m : List (Str × α)) (k q : Str) :
    mapGet (mapDelete m k) q = if k = q then none else mapGet m q := by
  induction m with
  | nil => simp [mapDelete, mapGet]
  | cons e m ih =>
    obtain ⟨a, w⟩ := e
    simp only [mapDelete]
    by_cases h : a = k
    · subst h; simp only [if_true, mapGet, ih]; split <;> rfl
    · simp only [h, if_false, mapGet, ih]
      by_cases h2 : a = q
      · subst h2; simp [Ne.symm h]
      · simp [h2]

theorem mapGet_isSome (m : List (Str × α)) (q : Str) :
    (∃ v, mapGet m q = some v) ↔ q ∈ m.map Prod.fst := by
  induction m with
  | nil => simp [mapGet]
  | cons e m ih =>
    obtain ⟨a, w⟩ := e
    simp only [mapGet, List.map_cons, List.mem_cons, ← ih]
    by_cases h : a = q
    · simp [h]
    · simp [h, Ne.symm h]

theorem mapGet_none (m : List (Str × α)) (q : Str) :
    mapGet m q = none ↔ q ∉ m.map Prod.fst := by
  rw [← mapGet_isSome]
  cases mapGet m q <;> simp

theorem mapGet_mem {m : List (Str × α)} {q : Str} {v : α} (h : mapGet m q = some v) :
    (q, v) ∈ m := by
  induction m with
  | nil => simp [mapGet] at h
  | cons e m ih =>
    obtain ⟨a, w⟩ := e
    simp only [mapGet] at h
    split at h
    · rename_i h2; simp at h; subst h2; subst h; simp
    · exact List.mem_cons_of_mem _ (ih h)

theorem mapGet_of_mem {m : List (Str × α)} (hm : IsMap m) {q : Str} {v : α} (h : (q, v) ∈ m) :
    mapGet m q = some v := by
  induction m with
  | nil => simp at h
  | cons e m ih =>
    obtain ⟨a, w⟩ := e
    simp only [IsMap, List.map_cons, List.nodup_cons] at hm
    simp only [mapGet]
    rcases List.mem_cons.mp h with h | h
    · simp at h; simp [h]
    · have : a ≠ q := by
        rintro rfl
        exact hm.1 (List.mem_map.mpr ⟨_, h, rfl⟩)
      simp [this, ih hm.2 h]

theorem mapGet_iff {m : List (Str × α)} (hm : IsMap m) (q : Str) (v : α) :
    mapGet m q = some v ↔ (q, v) ∈ m := ⟨mapGet_mem, mapGet_of_mem hm⟩

theorem keys_mapSet (m : List (Str × α)) (k : Str) (v : α) (q : Str) :
    q ∈ (mapSet m k v).map Prod.fst ↔ q = k ∨ q ∈ m.map Prod.fst := by
  rw [← mapGet_isSome, ← mapGet_isSome]
  simp only [mapGet_mapSet]
  by_cases h : k = q
  · simp [h]
  · simp [h, Ne.symm h]

theorem isMap_mapSet {m : List (Str × α)} (hm : IsMap m) (k : Str) (v : α) :
    IsMap (mapSet m k v) := by
  induction m with
  | nil => simp [mapSet, IsMap]
  | cons e m ih =>
    obtain ⟨a, w⟩ := e
    have hm' := hm
    simp only [IsMap, List.map_cons, List.nodup_cons] at hm
    simp only [mapSet]
    split
    · exact hm'
    · rename_i h
      simp only [IsMap, List.map_cons, List.nodup_cons]
      refine ⟨?_, ih hm.2⟩
      rw [keys_mapSet]
      rintro (h2 | h2)
      · exact h h2
      · exact hm.1 h2

theorem mem_mapDelete (m : List (Str × α)) (k : Str) (e : Str × α) :
    e ∈ mapDelete m k ↔ e ∈ m ∧ e.1 ≠ k := by
  induction m with
  | nil => simp [mapDelete]
  | cons d m ih =>
    obtain ⟨a, w⟩ := d
    simp only [mapDelete]
    split
    · rename_i h
      rw [ih, List.mem_cons]
      constructor
      · rintro ⟨h1, h2⟩; exact ⟨Or.inr h1, h2⟩
      · rintro ⟨h1 | h1, h2⟩
        · subst h1; exact absurd h h2
        · exact ⟨h1, h2⟩
    · rename_i h
      rw [List.mem_cons, ih, List.mem_cons]
      constructor
      · rintro (h1 | ⟨h1, h2⟩)
        · subst h1; exact ⟨Or.inl rfl, h⟩
        · exact ⟨Or.inr h1, h2⟩
      · rintro ⟨h1 | h1, h2⟩
        · exact Or.inl h1
        · exact Or.inr ⟨h1, h2⟩

theorem isMap_mapDelete {m : List (Str × α)} (hm : IsMap m) (k : Str) : IsMap (mapDelete m k) := by
  induction m with
  | nil => simp [mapDelete, IsMap]
  | cons e m ih =>
    obtain ⟨a, w⟩ := e
    simp only [IsMap, List.map_cons, List.nodup_cons] at hm
    simp only [mapDelete]
    split
    · exact ih hm.2
    · simp only [IsMap, List.map_cons, List.nodup_cons]
      refine ⟨?_, ih hm.2⟩
      intro h
      obtain ⟨e, he, hk⟩ := List.mem_map.mp h
      exact hm.1 (List.mem_map.mpr ⟨e, ((mem_mapDelete m k e).mp he).1, hk⟩)

/-! ### splitting -/

theorem splitOn_ne_nil (c : Char) (s : Str) : splitOn c s ≠ [] := by
  cases s with
  | nil => simp [splitOn]
  | cons d s =>
    simp only [splitOn]
    split
    · simp
    · cases splitOn c s <;> simp

theorem intercalate_cons₂ (c : Char) (a b : Str) (l : List Str) :
    [c].intercalate (a :: b :: l) = a ++ c :: [c].intercalate (b :: l) := by
  simp [List.intercalate, List.intersperse]

theorem pieces_splitOn (c : Char) (s : Str) : Pieces c s (splitOn c s) := by
  induction s with
  | nil => exact ⟨by simp [splitOn], by simp [splitOn], by simp [splitOn, List.intercalate]⟩
  | cons d s ih =>
    obtain ⟨h1, h2, h3⟩ := ih
    simp only [splitOn]
    by_cases h : d = c
    · subst h
      simp only [if_true]
      refine ⟨by simp, ?_, ?_⟩
      · intro p hp
        rcases List.mem_cons.mp hp with rfl | hp
        · simp
        · exact h2 p hp
      · cases hs : splitOn d s with
        | nil => exact absurd hs h1
        | cons a l => rw [intercalate_cons₂, ← hs, ← h3]; rfl
    · simp only [h, if_false]
      cases hs : splitOn c s with
      | nil => exact absurd hs h1
      | cons a l =>
        simp only
        rw [hs] at h2 h3
        refine ⟨by simp, ?_, ?_⟩
        · intro p hp
          rcases List.mem_cons.mp hp with rfl | hp
          · intro hc
            rcases List.mem_cons.mp hc with hc | hc
            · exact h hc.symm
            · exact h2 a (by simp) hc
          · exact h2 p (by simp [hp])
        · cases l with
          | nil =>
            simp only [List.intercalate, List.intersperse, List.flatten_cons, List.flatten_nil,
              List.append_nil] at h3 ⊢
            rw [h3]
          | cons b l => rw [intercalate_cons₂] at h3 ⊢; rw [h3]; rfl

theorem splitOn_of_pieces {c : Char} : ∀ {parts : List Str} {s : Str}, Pieces c s parts →
    splitOn c s = parts := by
  have single : ∀ a : Str, c ∉ a → splitOn c a = [a] := by
    intro a
    induction a with
    | nil => intro _; rfl
    | cons d a ih =>
      intro h
      have h1 : d ≠ c := by rintro rfl; simp at h
      have h2 : c ∉ a := fun h' => h (by simp [h'])
      simp [splitOn, h1, ih h2]
  have step : ∀ (a r : Str), c ∉ a → splitOn c (a ++ c :: r) = a :: splitOn c r := by
    intro a r
    induction a with
    | nil => intro _; simp [splitOn]
    | cons d a ih =>
      intro h
      have h1 : d ≠ c := by rintro rfl; simp at h
      have h2 : c ∉ a := fun h' => h (by simp [h'])
      simp [splitOn, h1, ih h2]
  intro parts
  induction parts with
  | nil => intro s h; exact absurd rfl h.1
  | cons a l ih =>
    intro s ⟨h1, h2, h3⟩
    cases l with
    | nil =>
      rw [h3]
      simp only [List.intercalate, List.intersperse, List.flatten_cons, List.flatten_nil,
        List.append_nil]
      exact single a (h2 a (by simp))
    | cons b l =>
      rw [h3, intercalate_cons₂, step a _ (h2 a (by simp)),
        ih ⟨by simp, fun p hp => h2 p (by simp [hp]), rfl⟩]

theorem splitOn_iff (c : Char) (s : Str) (parts : List Str) :
    splitOn c s = parts ↔ Pieces c s parts :=
  ⟨fun h => h ▸ pieces_splitOn c s, splitOn_of_pieces⟩

theorem stripped_iff (p s body : Str) : Stripped p s body ↔ trimPrefix s p = body := by
  unfold Stripped trimPrefix hasPrefix
  by_cases h : p <+: s
  · have h' : p.isPrefixOf s = true := List.isPrefixOf_iff_prefix.mpr h
    obtain ⟨t, rfl⟩ := h
    simp [h']
  · have h' : p.isPrefixOf s = false := by
      rw [← Bool.not_eq_true]; intro h2; exact h (List.isPrefixOf_iff_prefix.mp h2)
    simp only [h', h, not_false_eq_true, true_and, Bool.false_eq_true, if_false]
    constructor
    · rintro (h2 | h2)
      · exact absurd ⟨body, h2.symm⟩ h
      · exact h2
    · exact Or.inr

/-- the key under which a pattern is stored, if it is stored -/
def patternKey (mk : Encoder) (pat : Str) : Option Str :=
  match splitOn ':' (trimPrefix pat "urn:epc:pat:".toList) with
  | [t, f] => some ((mk t (splitOn '.' (toUpper f))).getD [])
  | _ => none

theorem storePattern_eq (mk : Encoder) (uri : Str) (b : FlatSubs) (pat : Str) :
    storePattern mk uri b pat = match patternKey mk pat with
      | some k => mapSet b k uri
      | none => b := by
  unfold storePattern patternKey
  split <;> simp_all

theorem patternKey_iff (mk : Encoder) (pat k : Str) :
    patternKey mk pat = some k ↔ ∃ t fields, PatternOf pat t fields ∧
      (mk t fields = some k ∨ (mk t fields = none ∧ k = [])) := by
  unfold patternKey
  constructor
  · intro h
    split at h
    · rename_i t f heq
      refine ⟨t, splitOn '.' (toUpper f), ⟨_, f, (stripped_iff _ _ _).mpr rfl,
        (splitOn_iff _ _ _).mp heq, pieces_splitOn _ _⟩, ?_⟩
      cases hm : mk t (splitOn '.' (toUpper f)) with
      | none => right; simp [hm] at h; exact ⟨rfl, h⟩
      | some k' => left; simp [hm] at h; rw [h]
    · simp at h
  · rintro ⟨t, fields, ⟨body, f, h1, h2, h3⟩, h4⟩
    rw [(stripped_iff _ _ _).mp h1, (splitOn_iff _ _ _).mpr h2]
    simp only
    rw [(splitOn_iff _ _ _).mpr h3]
    rcases h4 with h4 | ⟨h4, rfl⟩ <;> simp [h4]

theorem subscribes_iff (mk : Encoder) (sub : Subs) (uri k : Str) :
    Subscribes mk sub uri k ↔ ∃ pats, (uri, pats) ∈ sub ∧ ∃ pat ∈ pats, patternKey mk pat = some k := by
  simp only [Subscribes, patternKey_iff]

/-- all (filter, URI) pairs in the order in which they are stored -/
def storeOrder (mk : Encoder) (sub : Subs) : FlatSubs :=
  sub.flatMap fun e => e.2.filterMap fun pat => (patternKey mk pat).map fun k => (k, e.1)

theorem mem_storeOrder (mk : Encoder) (sub : Subs) (uri k : Str) :
    (k, uri) ∈ storeOrder mk sub ↔ Subscribes mk sub uri k := by
  rw [subscribes_iff]
  unfold storeOrder
  simp only [List.mem_flatMap, List.mem_filterMap, Option.map_eq_some_iff, Prod.mk.injEq]
  constructor
  · rintro ⟨e, he, pat, hp, k', hk, rfl, rfl⟩
    exact ⟨e.2, he, pat, hp, hk⟩
  · rintro ⟨pats, he, pat, hp, hk⟩
    exact ⟨_, he, pat, hp, k, hk, rfl, rfl⟩

theorem foldl_storePattern (mk : Encoder) (uri : Str) : ∀ (pats : List Str) (b : FlatSubs),
    pats.foldl (storePattern mk uri) b =
      (pats.filterMap fun pat => (patternKey mk pat).map fun k => (k, uri)).foldl
        (fun b e => mapSet b e.1 e.2) b
  | [], _ => rfl
  | p :: pats, b => by
    rw [List.foldl_cons, foldl_storePattern mk uri pats, storePattern_eq]
    cases h : patternKey mk p <;> simp [h]

theorem foldl_storeOrder (mk : Encoder) : ∀ (sub : Subs) (b : FlatSubs),
    sub.foldl (fun b e => e.2.foldl (storePattern mk e.1) b) b =
      (storeOrder mk sub).foldl (fun b e => mapSet b e.1 e.2) b
  | [], _ => rfl
  | e :: sub, b => by
    rw [List.foldl_cons, foldl_storeOrder mk sub, foldl_storePattern]
    simp only [storeOrder, List.flatMap_cons, List.foldl_append]

theorem toByteSubscriptions_eq (mk : Encoder) (sub : Subs) :
    toByteSubscriptions mk sub = (storeOrder mk sub).foldl (fun b e => mapSet b e.1 e.2) [] :=
  foldl_storeOrder mk sub []

theorem isMap_foldl_mapSet : ∀ (l : FlatSubs) (b : FlatSubs), IsMap b →
    IsMap (l.foldl (fun b e => mapSet b e.1 e.2) b)
  | [], _, h => h
  | e :: l, _, h => isMap_foldl_mapSet l _ (isMap_mapSet h e.1 e.2)

theorem isMap_toByteSubscriptions (mk : Encoder) (sub : Subs) :
    IsMap (toByteSubscriptions mk sub) := by
  rw [toByteSubscriptions_eq]
  exact isMap_foldl_mapSet _ _ (by simp [IsMap])

/-- the last stored pair wins -/
theorem mapGet_foldl_mapSet : ∀ (l : FlatSubs) (b : FlatSubs) (q : Str),
    mapGet (l.foldl (fun b e => mapSet b e.1 e.2) b) q =
      match mapGet l.reverse q with
      | some v => some v
      | none => mapGet b q
  | [], _, _ => rfl
  | (k, v) :: l, b, q => by
    rw [List.foldl_cons, mapGet_foldl_mapSet l, List.reverse_cons]
    have happ : ∀ (a c : FlatSubs), mapGet (a ++ c) q =
        match mapGet a q with | some v => some v | none => mapGet c q := by
      intro a c
      induction a with
      | nil => rfl
      | cons e a ih =>
        obtain ⟨x, y⟩ := e
        simp only [List.cons_append, mapGet]
        split
        · rfl
        · exact ih
    rw [happ]
    cases mapGet l.reverse q with
    | some w => rfl
    | none => simp only [mapGet_mapSet, mapGet]; split <;> rfl

theorem mapGet_toByteSubscriptions (mk : Encoder) (sub : Subs) (q : Str) :
    mapGet (toByteSubscriptions mk sub) q = mapGet (storeOrder mk sub).reverse q := by
  rw [toByteSubscriptions_eq, mapGet_foldl_mapSet]
  cases mapGet (storeOrder mk sub).reverse q <;> rfl

theorem mem_mapKeys (m : List (Str × α)) (q : Str) : q ∈ mapKeys m ↔ q ∈ m.map Prod.fst :=
  (sortStrings_perm _).mem_iff

theorem mapKeys_lt {m : List (Str × α)} (hm : IsMap m) : (mapKeys m).Pairwise (· < ·) :=
  sortStrings_lt hm

/-- two strictly ascending lists with the same elements are equal -/
theorem ascending_ext {l m : List Str} (hl : l.Pairwise (· < ·)) (hm : m.Pairwise (· < ·))
    (h : ∀ s, s ∈ l ↔ s ∈ m) : l = m := by
  have nd : ∀ {l : List Str}, l.Pairwise (· < ·) → l.Nodup := fun hl =>
    hl.imp fun h => by rintro rfl; exact List.lt_irrefl _ h
  have hp : l.Perm m := (List.perm_ext_iff_of_nodup (nd hl) (nd hm)).mpr fun a => h a
  exact sorted_perm_unique hp (hl.imp List.le_of_lt) (hm.imp List.le_of_lt)

theorem mapKeys_congr {m m' : List (Str × α)} (hm : IsMap m) (hm' : IsMap m')
    (h : ∀ q, mapGet m q = mapGet m' q) : mapKeys m = mapKeys m' := by
  apply ascending_ext (mapKeys_lt hm) (mapKeys_lt hm')
  intro s
  rw [mem_mapKeys, mem_mapKeys, ← mapGet_isSome, ← mapGet_isSome, h]

end Gosstrak
