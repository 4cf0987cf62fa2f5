import Verif.Proofs.RackFresh

/-! What holds of the groups after any calls. -/
namespace Gosstrak

/-! ### what is found is held -/

theorem sift_found {B : Str} {p : Nat} : ∀ {L : FlatSubs} {K : Str} {first : Bool} {u : Str},
    u ∈ (sift B p K first L).1 → ∃ e ∈ L, e.2 = u ∧ e.1 <+: B
  | [], _, _, _, h => by simp [sift] at h
  | (R, v) :: L, K, first, u, h => by
    rw [sift] at h
    by_cases hc : K <+: R ∧ R <+: B
    · rw [if_pos hc] at h
      have h' : u ∈ v :: (sift B p R true L).1 := by
        cases first <;> exact h
      rcases List.mem_cons.mp h' with rfl | h'
      · exact ⟨(R, u), by simp, rfl, hc.2⟩
      · obtain ⟨e, he, h1⟩ := sift_found h'
        exact ⟨e, by simp [he], h1⟩
    · rw [if_neg hc] at h
      obtain ⟨e, he, h1⟩ := sift_found h
      exact ⟨e, by simp [he], h1⟩

theorem find_found {bits : Str} : ∀ {r : Rack} {first : Bool} {a : List Str × Rack × Rack},
    Rack.find bits first r = some a → ∀ u ∈ a.1, ∃ g ∈ r, ∃ e ∈ g.2, e.2 = u ∧ e.1 <+: bits.drop g.1
  | [], _, _, h, u, hu => by cases h; simp at hu
  | (p, L) :: r, first, a, h, u, hu => by
    rw [Rack.find] at h
    split at h
    · cases h
    · dsimp only at h
      split at h
      · rw [Option.map_eq_some_iff] at h
        obtain ⟨a', h1, rfl⟩ := h
        obtain ⟨g, hg, h2⟩ := find_found h1 u hu
        exact ⟨g, by simp [hg], h2⟩
      · have hu' : u ∈ (sift (bits.drop p) p [] true L).1 := by
          split at h <;> (cases h; exact hu)
        obtain ⟨e, he, h2⟩ := sift_found hu'
        exact ⟨(p, L), by simp, e, he, h2⟩

/-! ### what is held was given -/

theorem sift_uris {B : Str} {p : Nat} : ∀ (L : FlatSubs) (K : Str) (first : Bool),
    (∀ e ∈ (sift B p K first L).2.1, e.2 ∈ L.map Prod.snd) ∧
    (∀ g ∈ (sift B p K first L).2.2, ∀ e ∈ g.2, e.2 ∈ L.map Prod.snd)
  | [], _, _ => by simp [sift]
  | (R, v) :: L, K, first => by
    rw [sift]
    by_cases hc : K <+: R ∧ R <+: B
    · rw [if_pos hc]
      obtain ⟨i1, i2⟩ := sift_uris (B := B) (p := p) L R true
      cases first
      · dsimp only
        rw [if_neg (by simp)]
        refine ⟨fun e he => ?_, fun g hg e he => ?_⟩
        · exact List.mem_cons_of_mem _ (i1 e ((List.dropWhile_sublist _).subset he))
        · rcases List.mem_cons.mp hg with rfl | hg
          · obtain ⟨x, hx, rfl⟩ := List.mem_map.mp he
            rcases List.mem_cons.mp hx with rfl | hx
            · simp
            · exact List.mem_cons_of_mem _ (i1 x ((List.takeWhile_sublist _).subset hx))
          · exact List.mem_cons_of_mem _ (i2 g hg e he)
      · dsimp only
        rw [if_pos rfl]
        refine ⟨fun e he => ?_, fun g hg e he => List.mem_cons_of_mem _ (i2 g hg e he)⟩
        rcases List.mem_cons.mp he with rfl | he
        · simp
        · exact List.mem_cons_of_mem _ (i1 e he)
    · rw [if_neg hc]
      obtain ⟨i1, i2⟩ := sift_uris (B := B) (p := p) L K false
      refine ⟨fun e he => ?_, fun g hg e he => List.mem_cons_of_mem _ (i2 g hg e he)⟩
      rcases List.mem_cons.mp he with rfl | he
      · simp
      · exact List.mem_cons_of_mem _ (i1 e he)

theorem mem_uris {r : Rack} {u : Str} : u ∈ r.uris ↔ ∃ g ∈ r, ∃ e ∈ g.2, e.2 = u := by
  simp only [Rack.uris, List.mem_flatMap, List.mem_map]

theorem find_uris {bits : Str} : ∀ {r : Rack} {first : Bool} {a : List Str × Rack × Rack},
    Rack.find bits first r = some a → (∀ u ∈ Rack.uris a.2.1, u ∈ r.uris) ∧ ∀ u ∈ Rack.uris a.2.2, u ∈ r.uris
  | [], _, _, h => by cases h; simp [Rack.uris]
  | (p, L) :: r, first, a, h => by
    have hcons : ∀ u, u ∈ Rack.uris ((p, L) :: r) ↔ u ∈ L.map Prod.snd ∨ u ∈ Rack.uris r := by
      intro u
      simp [Rack.uris]
    rw [Rack.find] at h
    split at h
    · cases h
    · dsimp only at h
      split at h
      · rw [Option.map_eq_some_iff] at h
        obtain ⟨a', h1, rfl⟩ := h
        obtain ⟨i1, i2⟩ := find_uris h1
        refine ⟨fun u hu => ?_, fun u hu => (hcons u).mpr (Or.inr (i2 u hu))⟩
        obtain ⟨g, hg, e, he, rfl⟩ := mem_uris.mp hu
        rcases List.mem_cons.mp hg with rfl | hg
        · exact (hcons _).mpr (Or.inl (List.mem_map_of_mem he))
        · exact (hcons _).mpr (Or.inr (i1 _ (mem_uris.mpr ⟨g, hg, e, he, rfl⟩)))
      · obtain ⟨s1, s2⟩ := sift_uris (B := bits.drop p) (p := p) L [] true
        have k1 : ∀ u ∈ Rack.uris ((p, (sift (bits.drop p) p [] true L).2.1) :: (sift (bits.drop p) p [] true L).2.2),
            u ∈ L.map Prod.snd := by
          intro u hu
          obtain ⟨g, hg, e, he, rfl⟩ := mem_uris.mp hu
          rcases List.mem_cons.mp hg with rfl | hg
          · exact s1 e he
          · exact s2 g hg e he
        split at h
        · cases h
          refine ⟨fun u hu => ?_, fun u hu => ?_⟩
          · obtain ⟨g, hg, e, he, rfl⟩ := mem_uris.mp hu
            rcases List.mem_cons.mp hg with rfl | hg
            · exact (hcons _).mpr (Or.inl (s1 e he))
            · exact (hcons _).mpr (Or.inr (mem_uris.mpr ⟨g, hg, e, he, rfl⟩))
          · obtain ⟨g, hg, e, he, rfl⟩ := mem_uris.mp hu
            exact (hcons _).mpr (Or.inl (s2 g hg e he))
        · cases h
          exact ⟨fun u hu => (hcons u).mpr (Or.inr hu), fun u hu => (hcons u).mpr (Or.inl (k1 u hu))⟩

/-- the entries after an addition to a group -/
theorem put_mem (fs uri : Str) : ∀ (L : FlatSubs) (K : Str), ∀ e ∈ put fs uri K L, e = (fs, uri) ∨ e ∈ L
  | [], _, e, h => by simpa [put] using h
  | (R, v) :: L, K, e, h => by
    rw [put] at h
    split at h
    · rcases List.mem_cons.mp h with h | h
      · exact Or.inl h
      · exact Or.inr h
    · split at h
      · rename_i hR
        rcases List.mem_cons.mp h with h | h
        · exact Or.inl (by rw [h, hR])
        · exact Or.inr (by simp [h])
      · split at h
        · rcases List.mem_cons.mp h with h | h
          · exact Or.inr (by simp [h])
          · exact (put_mem fs uri L R e h).imp (fun h => h) fun h => by simp [h]
        · rcases List.mem_cons.mp h with h | h
          · exact Or.inr (by simp [h])
          · exact (put_mem fs uri L K e h).imp (fun h => h) fun h => by simp [h]

/-- the entries after an addition: those before, and the new filter at its place -/
theorem add_mem (fs uri : Str) : ∀ (r : Rack), ∀ g ∈ Rack.add fs uri r, ∀ e ∈ g.2,
    (∃ g' ∈ r, g'.1 = g.1 ∧ e ∈ g'.2) ∨ (g.1 = r.placeFor fs ∧ e = (fs, uri))
  | [], g, hg, _, _ => by simp [Rack.add] at hg
  | (p, L) :: r, g, hg, e, he => by
    rw [Rack.add] at hg
    rw [Rack.placeFor]
    by_cases ht : Group.Takes (p, L) fs
    · rw [if_pos ht] at hg
      rw [if_pos (Or.inl ht)]
      rcases List.mem_cons.mp hg with rfl | hg
      · rcases put_mem fs uri L [] e he with h | h
        · exact Or.inr ⟨rfl, h⟩
        · exact Or.inl ⟨_, List.mem_cons_self .., rfl, h⟩
      · exact Or.inl ⟨g, by simp [hg], rfl, he⟩
    · rw [if_neg ht] at hg
      by_cases hr : r = []
      · rw [if_pos hr] at hg
        rw [if_pos (Or.inr hr)]
        rcases List.mem_cons.mp hg with rfl | hg
        · exact Or.inl ⟨_, List.mem_cons_self .., rfl, he⟩
        · simp only [List.mem_singleton] at hg
          subst hg
          exact Or.inr ⟨rfl, by simpa using he⟩
      · rw [if_neg hr] at hg
        rw [if_neg fun h => h.elim ht hr]
        rcases List.mem_cons.mp hg with rfl | hg
        · exact Or.inl ⟨_, List.mem_cons_self .., rfl, he⟩
        · rcases add_mem fs uri r g hg e he with ⟨g', h1, h2⟩ | h
          · exact Or.inl ⟨g', by simp [h1], h2⟩
          · exact Or.inr h

theorem takeOut_uris {fs : Str} {L : FlatSubs} : ∀ e ∈ takeOut fs L, e.2 = [] ∨ e ∈ L := by
  intro e he
  unfold takeOut at he
  split at he
  · obtain ⟨a, ha, rfl⟩ := List.mem_map.mp he
    by_cases h : a.1 = fs
    · left; simp [h]
    · right; simpa [h] using ha
  · exact Or.inr (List.mem_filter.mp he).1

theorem remove_uris {fs : Str} : ∀ (r : Rack), ∀ u ∈ Rack.uris (Rack.remove fs r), u = [] ∨ u ∈ r.uris
  | [], u, h => by simp [Rack.remove, Rack.uris] at h
  | (p, L) :: r, u, h => by
    have hcons : ∀ u, u ∈ Rack.uris ((p, L) :: r) ↔ u ∈ L.map Prod.snd ∨ u ∈ Rack.uris r := by
      intro u
      simp [Rack.uris]
    obtain ⟨g, hg, e, he, rfl⟩ := mem_uris.mp h
    rw [Rack.remove] at hg
    split at hg
    · split at hg
      · exact Or.inr ((hcons _).mpr (Or.inr (mem_uris.mpr ⟨g, hg, e, he, rfl⟩)))
      · rcases List.mem_cons.mp hg with rfl | hg
        · exact (takeOut_uris e he).imp (fun h => h) fun h => (hcons _).mpr (Or.inl (List.mem_map_of_mem h))
        · exact Or.inr ((hcons _).mpr (Or.inr (mem_uris.mpr ⟨g, hg, e, he, rfl⟩)))
    · rcases List.mem_cons.mp hg with rfl | hg
      · exact Or.inr ((hcons _).mpr (Or.inl (List.mem_map_of_mem he)))
      · exact (remove_uris r _ (mem_uris.mpr ⟨g, hg, e, he, rfl⟩)).imp (fun h => h) fun h =>
          (hcons _).mpr (Or.inr h)

theorem delete_uris {fs : Str} {r : Rack} : ∀ u ∈ Rack.uris (r.delete fs), u = [] ∨ u ∈ r.uris := by
  intro u hu
  unfold Rack.delete at hu
  split at hu
  · exact Or.inr hu
  · exact remove_uris r u hu

/-- the URIs that a call gives -/
def given (mk : Encoder) : SplayCall → Str → Prop
  | .add s, u => ∃ k, (k, u) ∈ toByteSubscriptions mk s
  | _, _ => False

theorem call_uris {mk : Encoder} {c : SplayCall} {r r' : Rack} (h : r.call mk c = some r') :
    ∀ u ∈ r'.uris, u = [] ∨ u ∈ r.uris ∨ given mk c u := by
  cases c with
  | add s =>
    have h' : (mapKeys (toByteSubscriptions mk s)).foldl
      (fun r fs => r.add fs (uriOf (toByteSubscriptions mk s) fs)) r = r' := Option.some.inj h
    have key : ∀ (ks : List Str) (r : Rack), (∀ k ∈ ks, k ∈ mapKeys (toByteSubscriptions mk s)) →
        ∀ u ∈ Rack.uris (ks.foldl (fun r fs => r.add fs (uriOf (toByteSubscriptions mk s) fs)) r),
          u ∈ r.uris ∨ given mk (.add s) u := by
      intro ks
      induction ks with
      | nil => exact fun r _ u hu => Or.inl hu
      | cons k ks ih =>
        intro r hks u hu
        rcases ih _ (fun k hk => hks k (by simp [hk])) u hu with h | h
        · obtain ⟨g, hg, e, he, rfl⟩ := mem_uris.mp h
          rcases add_mem _ _ r g hg e he with ⟨g', g1, -, g2⟩ | ⟨-, rfl⟩
          · exact Or.inl (mem_uris.mpr ⟨g', g1, e, g2, rfl⟩)
          · exact Or.inr ⟨k, uriOf_mem (hks k (by simp))⟩
        · exact Or.inr h
    intro u hu
    rw [← h'] at hu
    exact Or.inr (key _ r (fun k hk => hk) u hu)
  | delete s =>
    have h' : (mapKeys (toByteSubscriptions mk s)).foldl Rack.delete r = r' := Option.some.inj h
    have key : ∀ (ks : List Str) (r : Rack), ∀ u ∈ Rack.uris (ks.foldl Rack.delete r), u = [] ∨ u ∈ r.uris := by
      intro ks
      induction ks with
      | nil => exact fun r u hu => Or.inr hu
      | cons k ks ih =>
        intro r u hu
        rcases ih _ u hu with h | h
        · exact Or.inl h
        · exact delete_uris u h
    intro u hu
    rw [← h'] at hu
    exact (key _ r u hu).imp (fun h => h) Or.inl
  | search id =>
    have h' : ((Rack.find (bitsOf id) true r).map fun a => (a.1, a.2.2 ++ a.2.1)).map Prod.snd = some r' := h
    rw [Option.map_map, Option.map_eq_some_iff] at h'
    obtain ⟨a, h1, rfl⟩ := h'
    obtain ⟨i1, i2⟩ := find_uris h1
    intro u hu
    have hu' : u ∈ Rack.uris a.2.2 ∨ u ∈ Rack.uris a.2.1 := by
      simpa [Rack.uris] using hu
    rcases hu' with h | h
    · exact Or.inr (Or.inl (i2 u h))
    · exact Or.inr (Or.inl (i1 u h))

theorem calls_uris {mk : Encoder} : ∀ (cs : List SplayCall) {r r' : Rack}, cs.foldlM (Rack.call mk) r = some r' →
    ∀ u ∈ r'.uris, u = [] ∨ u ∈ r.uris ∨ ∃ c ∈ cs, given mk c u
  | [], r, r', h, u, hu => by cases h; exact Or.inr (Or.inl hu)
  | c :: cs, r, r', h, u, hu => by
    rw [List.foldlM_cons] at h
    cases h1 : r.call mk c with
    | none => rw [h1] at h; cases h
    | some r1 =>
      rw [h1] at h
      rcases calls_uris cs h u hu with h2 | h2 | ⟨c', hc, h2⟩
      · exact Or.inl h2
      · rcases call_uris h1 u h2 with h3 | h3 | h3
        · exact Or.inl h3
        · exact Or.inr (Or.inl h3)
        · exact Or.inr (Or.inr ⟨c, by simp, h3⟩)
      · exact Or.inr (Or.inr ⟨c', by simp [hc], h2⟩)

theorem freshRack_uris {b : FlatSubs} (hm : IsMap b) : ∀ u ∈ Rack.uris (freshRack b), ∃ k, (k, u) ∈ b := by
  intro u hu
  obtain ⟨g, hg, e, he, rfl⟩ := mem_uris.mp hu
  unfold freshRack at hg
  obtain ⟨k, -, rfl⟩ := List.mem_map.mp hg
  exact ⟨e.1, (mem_inOrder hm e).mp (List.mem_filter.mp he).1⟩

/-! ### the new filter is found -/

theorem sift_put {B fs uri : Str} {p : Nat} (hB : fs <+: B) : ∀ (L : FlatSubs) (K : Str) (first : Bool), K <+: fs →
    (∀ e ∈ L, e.1 <+: B → e.1 <+: fs) → uri ∈ (sift B p K first (put fs uri K L)).1
  | [], K, first, hK, _ => by
    rw [put, sift, if_pos ⟨hK, hB⟩]
    cases first <;> simp
  | (R, v) :: L, K, first, hK, h => by
    rw [put]
    by_cases h1 : K <+: R
    · rw [if_neg (fun h => h h1)]
      by_cases h2 : R = fs
      · rw [if_pos h2, sift, if_pos ⟨h1, h2 ▸ hB⟩]
        cases first <;> simp
      · rw [if_neg h2]
        by_cases h3 : R <+: fs
        · rw [if_pos h3, sift, if_pos ⟨h1, h3.trans hB⟩]
          have ih := sift_put (uri := uri) (p := p) hB L R true h3 fun e he => h e (by simp [he])
          cases first
          · exact List.mem_cons_of_mem _ ih
          · exact List.mem_cons_of_mem _ ih
        · rw [if_neg h3, sift, if_neg fun hc => h3 (h (R, v) (by simp) hc.2)]
          exact sift_put (p := p) hB L K false hK fun e he => h e (by simp [he])
    · rw [if_pos h1, sift, if_pos ⟨hK, hB⟩]
      cases first <;> simp

theorem sift_none {B : Str} {p : Nat} {K : Str} {first : Bool} {L : FlatSubs} (h : ∀ e ∈ L, ¬ e.1 <+: B) :
    (sift B p K first L).1 = [] := by
  rw [List.eq_nil_iff_forall_not_mem]
  intro u hu
  obtain ⟨e, he, -, h1⟩ := sift_found hu
  exact h e he h1

/-- the groups in front of the new filter find nothing -/
theorem find_added {bits fs uri : Str} {p : Nat} {L : FlatSubs} {post : Rack}
    (hp : fs <+: bits.drop p) (hL : ∀ e ∈ L, e.1 <+: bits.drop p → e.1 <+: fs) :
    ∀ (pre : Rack) (first : Bool) {a : List Str × Rack × Rack},
    (∀ g ∈ pre, ∀ e ∈ g.2, ¬ e.1 <+: bits.drop g.1) →
    Rack.find bits first (pre ++ (p, put fs uri [] L) :: post) = some a → uri ∈ a.1
  | [], first, a, _, h => by
    rw [List.nil_append, Rack.find] at h
    split at h
    · cases h
    · have hin := sift_put (uri := uri) (p := p) hp L [] true List.nil_prefix hL
      dsimp only at h
      rw [if_neg (List.ne_nil_of_mem hin)] at h
      split at h <;> (cases h; exact hin)
  | g :: pre, first, a, hg, h => by
    obtain ⟨q, M⟩ := g
    rw [List.cons_append, Rack.find] at h
    split at h
    · cases h
    · dsimp only at h
      rw [if_pos (sift_none (hg (q, M) (by simp)))] at h
      rw [Option.map_eq_some_iff] at h
      obtain ⟨a', h1, rfl⟩ := h
      exact find_added (uri := uri) (post := post) hp hL pre false (a := a') (fun g hg' => hg g (by simp [hg'])) h1

theorem add_split {fs uri : Str} {p : Nat} {L : FlatSubs} {post : Rack} (ht : Group.Takes (p, L) fs) :
    ∀ (pre : Rack), (∀ g ∈ pre, ¬ g.Takes fs) →
    Rack.add fs uri (pre ++ (p, L) :: post) = pre ++ (p, put fs uri [] L) :: post
  | [], _ => by rw [List.nil_append, Rack.add, if_pos ht]; rfl
  | g :: pre, h => by
    obtain ⟨q, M⟩ := g
    rw [List.cons_append, Rack.add, if_neg (h (q, M) (by simp)), if_neg (by simp),
      add_split ht pre fun g hg => h g (by simp [hg])]
    rfl

end Gosstrak
