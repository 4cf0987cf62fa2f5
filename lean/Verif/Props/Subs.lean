import Verif.Proofs.Subs

/-! # C09, C11, C12: keys of a map, conversion of patterns to filters -/
namespace Gosstrak

/-! ## C09 -/

/-- C09: `Keys` lists every key exactly once, in ascending order. -/
theorem C09_keys {α : Type} (m : List (Str × α)) (hm : IsMap m) :
    (mapKeys m).Pairwise (· < ·) ∧ ∀ k, k ∈ mapKeys m ↔ ∃ v, (k, v) ∈ m := by
  refine ⟨mapKeys_lt hm, fun k => ?_⟩
  rw [mem_mapKeys, List.mem_map]
  constructor
  · rintro ⟨⟨a, v⟩, h, rfl⟩; exact ⟨v, h⟩
  · rintro ⟨v, h⟩; exact ⟨_, h, rfl⟩

/-- C09: the result does not depend on the order in which the map is visited. -/
theorem C09_keys_any_order {α : Type} (m m' : List (Str × α)) (h : m.Perm m') :
    mapKeys m = mapKeys m' :=
  sortStrings_eq_of_perm (h.map _)

example : mapKeys [("b".toList, 1), ("ab".toList, 2), ("a".toList, 3)]
    = ["a".toList, "ab".toList, "b".toList] := by decide

/-! ## C11 -/

/-- C11: when no filter string is subscribed by two different URIs, the converted map has exactly
    the subscribed (filter, URI) pairs, each once, whatever the iteration order. -/
theorem C11_exact (mk : Encoder) (sub order : Subs) (hp : order.Perm sub)
    (hu : ∀ k u v, Subscribes mk sub u k → Subscribes mk sub v k → u = v) :
    IsMap (toByteSubscriptions mk order) ∧
    ∀ k u, (k, u) ∈ toByteSubscriptions mk order ↔ Subscribes mk sub u k := by
  have hs : ∀ u k, Subscribes mk order u k ↔ Subscribes mk sub u k := by
    intro u k
    unfold Subscribes
    simp only [hp.mem_iff]
  have hmap := isMap_toByteSubscriptions mk order
  refine ⟨hmap, fun k u => ?_⟩
  rw [← mapGet_iff hmap, mapGet_toByteSubscriptions]
  constructor
  · intro h
    have := mapGet_mem h
    rw [List.mem_reverse, mem_storeOrder] at this
    exact (hs u k).mp this
  · intro h
    have h1 : (k, u) ∈ (storeOrder mk order).reverse := by
      rw [List.mem_reverse, mem_storeOrder]; exact (hs u k).mpr h
    have h2 : k ∈ (storeOrder mk order).reverse.map Prod.fst := List.mem_map.mpr ⟨_, h1, rfl⟩
    obtain ⟨v, hv⟩ := (mapGet_isSome _ _).mpr h2
    rw [hv]
    have h3 := mapGet_mem hv
    rw [List.mem_reverse, mem_storeOrder] at h3
    rw [hu k v u ((hs v k).mp h3) h]

/-- C11: hence all iteration orders give the same map and the same `Keys`. -/
theorem C11_order_independent (mk : Encoder) (sub order : Subs) (hp : order.Perm sub)
    (hu : ∀ k u v, Subscribes mk sub u k → Subscribes mk sub v k → u = v) :
    (∀ k, mapGet (toByteSubscriptions mk order) k = mapGet (toByteSubscriptions mk sub) k) ∧
    mapKeys (toByteSubscriptions mk order) = mapKeys (toByteSubscriptions mk sub) := by
  obtain ⟨m1, h1⟩ := C11_exact mk sub order hp hu
  obtain ⟨m2, h2⟩ := C11_exact mk sub sub (List.Perm.refl _) hu
  have h : ∀ k, mapGet (toByteSubscriptions mk order) k = mapGet (toByteSubscriptions mk sub) k := by
    intro k
    apply Option.ext
    intro u
    rw [mapGet_iff m1, mapGet_iff m2, h1, h2]
  exact ⟨h, mapKeys_congr m1 m2 h⟩

/-- a toy encoder for the examples: the fields themselves, an error for an empty first field -/
def toyEncoder : Encoder := fun _ fs =>
  if fs.head? = some [] then none else some fs.flatten

-- test: two URIs, three patterns, one of them unusable; hypotheses of C11 hold
def toySub : Subs :=
  [("http://b".toList, ["urn:epc:pat:s:01.1".toList, "urn:epc:pat:broken".toList]),
   ("http://a".toList, ["urn:epc:pat:s:0".toList])]

example : toByteSubscriptions toyEncoder toySub
    = [("011".toList, "http://b".toList), ("0".toList, "http://a".toList)] := by decide +kernel
example : ∀ k u v, Subscribes toyEncoder toySub u k → Subscribes toyEncoder toySub v k → u = v := by
  intro k u v h1 h2
  rw [← mem_storeOrder] at h1 h2
  have hs : ∀ p ∈ storeOrder toyEncoder toySub, ∀ q ∈ storeOrder toyEncoder toySub,
      p.1 = q.1 → p.2 = q.2 := by decide +kernel
  exact hs _ h1 _ h2 rfl

/-! ## C12 -/

/-- C12, the code: there is one entry for a filter string, and it belongs to the last URI visited
    that subscribes with it; the other URIs are dropped. -/
theorem C12_last_visited_wins (mk : Encoder) (pre post : Subs) (uri : Str) (pats : List Str) (k : Str)
    (h : Subscribes mk [(uri, pats)] uri k) (hpost : ∀ v, ¬ Subscribes mk post v k) :
    ∀ v, (k, v) ∈ toByteSubscriptions mk (pre ++ (uri, pats) :: post) ↔ v = uri := by
  intro v
  rw [← mapGet_iff (isMap_toByteSubscriptions mk _), mapGet_toByteSubscriptions]
  have happ : ∀ a b : Subs, storeOrder mk (a ++ b) = storeOrder mk a ++ storeOrder mk b := by
    intro a b; simp [storeOrder, List.flatMap_append]
  have hcons : (uri, pats) :: post = [(uri, pats)] ++ post := rfl
  rw [hcons, happ, happ, List.reverse_append, List.reverse_append]
  have hget : ∀ (a c : FlatSubs), mapGet (a ++ c) k =
      match mapGet a k with | some v => some v | none => mapGet c k := by
    intro a c
    induction a with
    | nil => rfl
    | cons e a ih =>
      obtain ⟨x, y⟩ := e
      simp only [List.cons_append, mapGet]
      split
      · rfl
      · exact ih
  have h1 : mapGet (storeOrder mk post).reverse k = none := by
    cases hg : mapGet (storeOrder mk post).reverse k with
    | none => rfl
    | some w =>
      have := mapGet_mem hg
      rw [List.mem_reverse, mem_storeOrder] at this
      exact absurd this (hpost w)
  have h2 : mapGet (storeOrder mk [(uri, pats)]).reverse k = some uri := by
    have hm : (k, uri) ∈ (storeOrder mk [(uri, pats)]).reverse := by
      rw [List.mem_reverse, mem_storeOrder]; exact h
    obtain ⟨w, hw⟩ := (mapGet_isSome _ _).mpr (List.mem_map.mpr ⟨_, hm, rfl⟩)
    rw [hw]
    have := mapGet_mem hw
    rw [List.mem_reverse, mem_storeOrder] at this
    obtain ⟨p, hp, -⟩ := this
    simp at hp
    rw [hp.1]
  rw [hget, hget, h1, h2]
  simp [eq_comm]

/-- C12, refuted: whenever two URIs subscribe with the same filter string, each of them is dropped
    under some iteration order: the converted map never has both, and which one it has depends on
    the order. -/
theorem C12_one_uri_lost (mk : Encoder) (sub : Subs) (hm : IsMap sub) (u v k : Str) (huv : u ≠ v)
    (hu : Subscribes mk sub u k) (hv : Subscribes mk sub v k) :
    (∀ order : Subs, order.Perm sub →
      ¬ ((k, u) ∈ toByteSubscriptions mk order ∧ (k, v) ∈ toByteSubscriptions mk order)) ∧
    (∃ order : Subs, order.Perm sub ∧ (k, u) ∈ toByteSubscriptions mk order) ∧
    (∃ order : Subs, order.Perm sub ∧ (k, v) ∈ toByteSubscriptions mk order) := by
  have last : ∀ w, Subscribes mk sub w k →
      ∃ order : Subs, order.Perm sub ∧ (k, w) ∈ toByteSubscriptions mk order := by
    intro w ⟨pats, hw, hrest⟩
    obtain ⟨a, b, rfl⟩ := List.append_of_mem hw
    refine ⟨(a ++ b) ++ [(w, pats)], ?_, ?_⟩
    · rw [List.append_assoc]
      exact List.Perm.append_left a List.perm_append_comm
    · exact (C12_last_visited_wins mk (a ++ b) [] w pats k ⟨pats, by simp, hrest⟩
        (by rintro v ⟨_, h, _⟩; simp at h) w).mpr rfl
  refine ⟨fun order _ h => ?_, last u hu, last v hv⟩
  have hmap := isMap_toByteSubscriptions mk order
  have h1 := mapGet_of_mem hmap h.1
  have h2 := mapGet_of_mem hmap h.2
  rw [h1] at h2
  exact huv (Option.some.inj h2)

-- test: the same pattern for two URIs; the hypotheses hold, one URI is lost
example : toByteSubscriptions toyEncoder
    [("http://a".toList, ["urn:epc:pat:s:01".toList]), ("http://b".toList, ["urn:epc:pat:s:01".toList])]
    = [("01".toList, "http://b".toList)] := by decide +kernel
example : IsMap [("http://a".toList, ["urn:epc:pat:s:01".toList]),
    ("http://b".toList, ["urn:epc:pat:s:01".toList])] := by decide +kernel
example : Subscribes toyEncoder
    [("http://a".toList, ["urn:epc:pat:s:01".toList]), ("http://b".toList, ["urn:epc:pat:s:01".toList])]
    "http://a".toList "01".toList := by
  rw [← mem_storeOrder]; decide +kernel

end Gosstrak
