import Verif.Model.ListEngine
import Verif.Proofs.Bits
import Verif.Proofs.Subs

namespace Gosstrak

theorem newFilter_str (s : Str) (o : Nat) : (newFilter s o).str = s := rfl

/-- the (filter string, URI) pairs of a converted map in key order -/
def sortedPairs (bsub : FlatSubs) : FlatSubs :=
  (mapKeys bsub).filterMap fun fs => (mapGet bsub fs).map fun u => (fs, u)

/-- the engine entry of a pair -/
def toMatch (e : Str × Str) : FilterObject × Str := (newFilter e.1 0, e.2)

theorem toMatch_inj {a b : Str × Str} (h : toMatch a = toMatch b) : a = b := by
  have h1 := congrArg (fun e => e.1.str) h
  have h2 := congrArg Prod.snd h
  exact Prod.ext h1 h2

theorem exactMatches_eq (bsub : FlatSubs) :
    exactMatches bsub = (sortedPairs bsub).map toMatch := by
  unfold exactMatches sortedPairs
  rw [List.map_filterMap]
  congr 1
  funext fs
  cases mapGet bsub fs <;> rfl

theorem mem_sortedPairs (bsub : FlatSubs) (hm : IsMap bsub) (e : Str × Str) :
    e ∈ sortedPairs bsub ↔ e ∈ bsub := by
  obtain ⟨k, u⟩ := e
  unfold sortedPairs
  simp only [List.mem_filterMap, Option.map_eq_some_iff, Prod.mk.injEq]
  constructor
  · rintro ⟨k', hk, u', hu, rfl, rfl⟩; exact mapGet_mem hu
  · intro h
    exact ⟨k, (mem_mapKeys _ _).mpr (List.mem_map.mpr ⟨_, h, rfl⟩), u, mapGet_of_mem hm h, rfl, rfl⟩

theorem keys_sortedPairs (bsub : FlatSubs) : (sortedPairs bsub).map Prod.fst = mapKeys bsub := by
  unfold sortedPairs
  rw [List.map_filterMap]
  have h : ∀ l : List Str, (∀ k ∈ l, ∃ v, mapGet bsub k = some v) →
      l.filterMap (fun x => Option.map Prod.fst (Option.map (fun u => (x, u)) (mapGet bsub x))) = l := by
    intro l hl
    induction l with
    | nil => rfl
    | cons a l ih =>
      obtain ⟨v, hv⟩ := hl a (by simp)
      rw [List.filterMap_cons, hv]
      simp only [Option.map_some]
      rw [ih fun k hk => hl k (by simp [hk])]
  apply h
  intro k hk
  exact (mapGet_isSome _ _).mpr ((mem_mapKeys _ _).mp hk)

theorem nodup_of_lt {l : List Str} (hl : l.Pairwise (· < ·)) : l.Nodup :=
  hl.imp fun h => by rintro rfl; exact List.lt_irrefl _ h

theorem nodup_sortedPairs (bsub : FlatSubs) (hm : IsMap bsub) : (sortedPairs bsub).Nodup := by
  have : ((sortedPairs bsub).map Prod.fst).Nodup := by
    rw [keys_sortedPairs]; exact nodup_of_lt (mapKeys_lt hm)
  exact (List.pairwise_map.mp this).imp fun h => by rintro rfl; exact h rfl

/-- the loop of `Search` selects the entries whose filter starts the ID -/
theorem listMatches_map (l : FlatSubs) (id : List Byte)
    (h : ∀ e ∈ l, IsBitStr e.1 ∧ Covers e.1 0 id) :
    ListEngine.matches (l.map toMatch) id =
      some ((l.filter fun e => decide (e.1 <+: bitsOf id)).map Prod.snd) := by
  induction l with
  | nil => rfl
  | cons e l ih =>
    obtain ⟨h1, h2⟩ := h e (by simp)
    rw [List.map_cons, toMatch, ListEngine.matches, matchID_prefix0 h1 h2]
    simp only
    rw [ih fun e he => h e (by simp [he])]
    simp only [Option.map_some, List.filter_cons]
    split <;> rfl

/-! ### add and delete -/

theorem indexOf_none (l : ListEngine) (em : FilterObject × Str) :
    l.indexOf em = none ↔ em ∉ l := by
  induction l with
  | nil => simp [ListEngine.indexOf]
  | cons a l ih =>
    unfold ListEngine.indexOf
    by_cases h : a = em
    · simp [h]
    · simp [h, ih, Ne.symm h]

theorem indexOf_some (l : ListEngine) (em : FilterObject × Str) (i : Nat) (h : l.indexOf em = some i) :
    l.take i ++ l.drop (i + 1) = l.erase em := by
  induction l generalizing i with
  | nil => simp [ListEngine.indexOf] at h
  | cons a l ih =>
    unfold ListEngine.indexOf at h
    by_cases ha : a = em
    · simp [ha] at h; subst h; simp [ha]
    · simp only [ha, if_false, Option.map_eq_some_iff] at h
      obtain ⟨j, hj, rfl⟩ := h
      rw [List.erase_cons_tail (by simpa using ha)]
      simp [ih j hj]

theorem deleteOne_eq (l : ListEngine) (em : FilterObject × Str) : l.deleteOne em = l.erase em := by
  unfold ListEngine.deleteOne
  cases h : l.indexOf em with
  | none => exact (List.erase_of_not_mem ((indexOf_none l em).mp h)).symm
  | some i => exact indexOf_some l em i h

theorem addOne_eq (l : ListEngine) (em : FilterObject × Str) :
    l.addOne em = if em ∈ l then l else l ++ [em] := by
  unfold ListEngine.addOne
  cases h : l.indexOf em with
  | none => simp [(indexOf_none l em).mp h]
  | some i =>
    have : em ∈ l := by
      apply Classical.byContradiction
      intro hc
      rw [(indexOf_none l em).mpr hc] at h
      simp at h
    simp [this]

theorem mem_toMatch_map (l : FlatSubs) (e : Str × Str) : toMatch e ∈ l.map toMatch ↔ e ∈ l := by
  rw [List.mem_map]
  constructor
  · rintro ⟨a, ha, h⟩; exact toMatch_inj h ▸ ha
  · intro h; exact ⟨e, h, rfl⟩

theorem foldl_addOne : ∀ (b l : FlatSubs), l.Nodup →
    ∃ l' : FlatSubs, (b.map toMatch).foldl ListEngine.addOne (l.map toMatch) = l'.map toMatch ∧
      l'.Nodup ∧ ∀ e, e ∈ l' ↔ e ∈ l ∨ e ∈ b
  | [], l, h => ⟨l, rfl, h, by simp⟩
  | e :: b, l, h => by
    rw [List.map_cons, List.foldl_cons, addOne_eq]
    by_cases he : e ∈ l
    · rw [if_pos ((mem_toMatch_map l e).mpr he)]
      obtain ⟨l', h1, h2, h3⟩ := foldl_addOne b l h
      refine ⟨l', h1, h2, fun d => ?_⟩
      rw [h3, List.mem_cons]
      constructor
      · rintro (h | h)
        · exact Or.inl h
        · exact Or.inr (Or.inr h)
      · rintro (h | rfl | h)
        · exact Or.inl h
        · exact Or.inl he
        · exact Or.inr h
    · rw [if_neg fun h => he ((mem_toMatch_map l e).mp h)]
      have hn : (l ++ [e]).Nodup := by
        rw [List.nodup_append]
        refine ⟨h, by simp, ?_⟩
        intro a ha c hc
        simp at hc
        subst hc
        rintro rfl
        exact he ha
      obtain ⟨l', h1, h2, h3⟩ := foldl_addOne b (l ++ [e]) hn
      refine ⟨l', by rw [← h1]; simp, h2, fun d => ?_⟩
      rw [h3, List.mem_append, List.mem_singleton, List.mem_cons, or_assoc]

theorem erase_toMatch (l : FlatSubs) (e : Str × Str) :
    (l.map toMatch).erase (toMatch e) = (l.erase e).map toMatch := by
  induction l with
  | nil => rfl
  | cons a l ih =>
    by_cases h : a = e
    · subst h; simp
    · have h2 : toMatch a ≠ toMatch e := fun hc => h (toMatch_inj hc)
      rw [List.map_cons, List.erase_cons_tail (by simpa using h2),
        List.erase_cons_tail (by simpa using h), ih, List.map_cons]

theorem foldl_deleteOne : ∀ (b l : FlatSubs), l.Nodup →
    ∃ l' : FlatSubs, (b.map toMatch).foldl ListEngine.deleteOne (l.map toMatch) = l'.map toMatch ∧
      l'.Nodup ∧ ∀ e, e ∈ l' ↔ e ∈ l ∧ e ∉ b
  | [], l, h => ⟨l, rfl, h, by simp⟩
  | e :: b, l, h => by
    rw [List.map_cons, List.foldl_cons, deleteOne_eq, erase_toMatch]
    obtain ⟨l', h1, h2, h3⟩ := foldl_deleteOne b (l.erase e) (h.erase e)
    refine ⟨l', h1, h2, fun d => ?_⟩
    rw [h3, h.mem_erase_iff, List.mem_cons]
    constructor
    · rintro ⟨⟨h4, h5⟩, h6⟩
      exact ⟨h5, fun hc => hc.elim (fun h => h4 h) fun h => h6 h⟩
    · rintro ⟨h4, h5⟩
      exact ⟨⟨fun h => h5 (Or.inl h), h4⟩, fun h => h5 (Or.inr h)⟩

end Gosstrak
