import Verif.Model.Legacy
import Verif.Proofs.Subs

/-! Slices and their backing arrays. -/
namespace Gosstrak

namespace Heap

/-- the slice lies within its array -/
def Valid (h : Heap) (s : Slice) : Prop := s.arr < h.length ∧ s.off + s.len ≤ (h.arrayAt s.arr).length

theorem arrayAt_modify (h : Heap) (a b : Nat) (f : List Str → List Str) (ha : a < h.length) :
    arrayAt (h.modify a f) b = if b = a then f (h.arrayAt a) else h.arrayAt b := by
  unfold arrayAt
  rw [List.getElem?_modify]
  by_cases hb : b = a
  · subst hb
    simp [ha]
  · have : ¬ a = b := fun h => hb h.symm
    simp only [hb, this, if_false]
    cases h[b]? <;> rfl

theorem arrayAt_append_left (h : Heap) (x : List Str) {a : Nat} (ha : a < h.length) :
    arrayAt (h ++ [x]) a = h.arrayAt a := by
  unfold arrayAt; rw [List.getElem?_append_left ha]

theorem arrayAt_append_new (h : Heap) (x : List Str) : arrayAt (h ++ [x]) h.length = x := by
  unfold arrayAt; simp

theorem view_length {h : Heap} {s : Slice} (hv : Valid h s) : (h.view s).length = s.len := by
  unfold view
  rw [List.length_take, List.length_drop]
  have := hv.2
  omega

theorem view_congr {h h' : Heap} {s : Slice} (ha : h'.arrayAt s.arr = h.arrayAt s.arr) :
    h'.view s = h.view s := by
  unfold view; rw [ha]

theorem valid_congr {h h' : Heap} {s : Slice} (hl : h.length ≤ h'.length)
    (ha : h'.arrayAt s.arr = h.arrayAt s.arr) (hv : Valid h s) : Valid h' s := by
  refine ⟨Nat.lt_of_lt_of_le hv.1 hl, ?_⟩
  rw [ha]; exact hv.2

/-- effect of `append` -/
theorem append_spec (grow : Nat → Nat) (h : Heap) (s : Slice) (v : Str) (hv : Valid h s) :
    let r := h.append grow s v
    Valid r.1 r.2 ∧ r.1.view r.2 = h.view s ++ [v] ∧ h.length ≤ r.1.length ∧
    (∀ a, a < h.length → a ≠ s.arr → r.1.arrayAt a = h.arrayAt a) ∧
    ((r.2.arr = s.arr ∧ r.2.off = s.off ∧ r.2.len = s.len + 1) ∨ r.2.arr = h.length) ∧
    (r.1.arrayAt s.arr).length = (h.arrayAt s.arr).length ∧
    (r.1.arrayAt s.arr).take (s.off + s.len) = (h.arrayAt s.arr).take (s.off + s.len) := by
  obtain ⟨hv1, hv2⟩ := hv
  unfold append
  split
  · rename_i hlt
    dsimp only
    refine ⟨⟨by simpa using hv1, ?_⟩, ?_, by simp, ?_, Or.inl ⟨rfl, rfl, rfl⟩, ?_, ?_⟩
    · rw [arrayAt_modify _ _ _ _ hv1, if_pos rfl, List.length_set]
      simp only
      omega
    · unfold view
      rw [arrayAt_modify _ _ _ _ hv1]
      simp only [if_true]
      apply List.ext_getElem?
      intro i
      by_cases hi : i < s.len
      · have h1 : i < s.len + 1 := by omega
        rw [List.getElem?_take_of_lt h1, List.getElem?_drop, List.getElem?_set,
          List.getElem?_append_left, List.getElem?_take_of_lt hi, List.getElem?_drop]
        · have : ¬ s.off + s.len = s.off + i := by omega
          rw [if_neg this]
        · simp; omega
      · have hlen : (List.take s.len (List.drop s.off (h.arrayAt s.arr))).length = s.len := by
          simp; omega
        rw [List.getElem?_append_right (by omega), hlen]
        by_cases hie : i = s.len
        · subst hie
          rw [List.getElem?_take_of_lt (by omega), List.getElem?_drop, List.getElem?_set]
          simp [hlt]
        · rw [List.getElem?_eq_none (by simp; omega), List.getElem?_eq_none (by simp; omega)]
    · intro a ha hne
      rw [arrayAt_modify _ _ _ _ hv1, if_neg hne]
    · rw [arrayAt_modify _ _ _ _ hv1]; simp
    · rw [arrayAt_modify _ _ _ _ hv1]; simp [List.take_set_of_le]
  · rename_i hge
    dsimp only
    have hvl := view_length (h := h) (s := s) ⟨hv1, hv2⟩
    refine ⟨⟨by simp, ?_⟩, ?_, by simp, ?_, Or.inr rfl, ?_, ?_⟩
    · rw [arrayAt_append_new]; simp [hvl]
    · show List.take (s.len + 1) (List.drop 0 (arrayAt (h ++ _) h.length)) = _
      rw [arrayAt_append_new, List.drop_zero]
      have : (h.view s ++ [v]).length = s.len + 1 := by simp [hvl]
      rw [← this, List.take_left]
    · intro a ha _
      exact arrayAt_append_left _ _ ha
    · rw [arrayAt_append_left _ _ hv1]
    · rw [arrayAt_append_left _ _ hv1]

/-- effect of `append(s[:i], s[i+1:]...)` -/
theorem removeAt_spec (h : Heap) (s : Slice) (i : Nat) (hv : Valid h s) (hi : i < s.len) :
    let r := h.removeAt s i
    r.1.length = h.length ∧ (∀ a, a ≠ s.arr → r.1.arrayAt a = h.arrayAt a) ∧
    r.2 = { s with len := s.len - 1 } ∧
    (r.1.arrayAt s.arr).length = (h.arrayAt s.arr).length ∧
    r.1.view s = (h.view s).take i ++ (h.view s).drop (i + 1) ++ (h.view s).drop (s.len - 1) := by
  have hvl := view_length hv
  obtain ⟨hv1, hv2⟩ := hv
  unfold removeAt
  dsimp only
  have hlen : ((h.arrayAt s.arr).take (s.off + i) ++ (h.view s).drop (i + 1) ++
      (h.arrayAt s.arr).drop (s.off + (s.len - 1))).length = (h.arrayAt s.arr).length := by
    simp [hvl]; omega
  refine ⟨by simp, ?_, rfl, ?_, ?_⟩
  · intro a ha
    rw [arrayAt_modify _ _ _ _ hv1, if_neg ha]
  · rw [arrayAt_modify _ _ _ _ hv1, if_pos rfl, hlen]
  · have h1 : List.drop s.off (List.take (s.off + i) (h.arrayAt s.arr)) = (h.view s).take i := by
      unfold view
      rw [List.drop_take, List.take_take]
      congr 1
      omega
    have h2 : (List.drop (s.off + (s.len - 1)) (h.arrayAt s.arr)).take 1 = (h.view s).drop (s.len - 1) := by
      unfold view
      rw [List.drop_take, List.drop_drop]
      congr 1
      omega
    rw [← h2, ← h1]
    unfold view at hvl ⊢
    rw [arrayAt_modify _ _ _ _ hv1, if_pos rfl]
    rw [List.append_assoc, List.drop_append_of_le_length (by simp; omega), List.append_assoc]
    rw [List.take_append]
    have h3 : (List.drop s.off (List.take (s.off + i) (h.arrayAt s.arr))).length = i := by
      simp; omega
    rw [List.take_of_length_le (by omega), h3, List.take_append]
    have h4 : (List.drop (i + 1) (List.take s.len (List.drop s.off (h.arrayAt s.arr)))).length =
        s.len - (i + 1) := by
      rw [List.length_drop, hvl]
    have h5 : s.len - i - (s.len - (i + 1)) = 1 := by omega
    have h6 := List.take_of_length_le (i := s.len - i)
      (l := List.drop (i + 1) (List.take s.len (List.drop s.off (h.arrayAt s.arr)))) (by omega)
    rw [h4, h5, h6]

end Heap

open Heap

/-- slices within their arrays, different keys in different arrays -/
structure Sep (h : Heap) (m : SliceMap) : Prop where
  valid : ∀ f s, mapGet m f = some s → Valid h s
  sep : ∀ f f' s s', mapGet m f = some s → mapGet m f' = some s' → s.arr = s'.arr → f = f'

/-- the patterns stored for a key -/
def look (h : Heap) (m : SliceMap) (f : Str) : Option (List Str) := (mapGet m f).map h.view

/-- Effect common to all the operations: other keys are untouched, the array of `f` is an old one of
    `f`, the given one, or new. -/
structure Step (f : Str) (given : Nat → Prop) (h : Heap) (m : SliceMap) (h' : Heap) (m' : SliceMap) :
    Prop where
  sep : Sep h' m'
  len : h.length ≤ h'.length
  frame : ∀ a, a < h.length → (∀ s, mapGet m f = some s → s.arr ≠ a) → h'.arrayAt a = h.arrayAt a
  other : ∀ q, q ≠ f → mapGet m' q = mapGet m q
  arr : ∀ s', mapGet m' f = some s' →
    (∃ s, mapGet m f = some s ∧ s.arr = s'.arr) ∨ given s'.arr ∨ h.length ≤ s'.arr

theorem Step.look_other {f : Str} {given : Nat → Prop} {h h' : Heap} {m m' : SliceMap}
    (hs : Sep h m) (st : Step f given h m h' m') {q : Str} (hq : q ≠ f) :
    look h' m' q = look h m q := by
  unfold look
  rw [st.other q hq]
  cases hg : mapGet m q with
  | none => rfl
  | some s =>
    simp only [Option.map_some]
    congr 1
    apply view_congr
    apply st.frame _ (hs.valid q s hg).1
    intro s' hs' ha
    exact hq (hs.sep _ _ _ _ hs' hg ha).symm

/-- replacing the slice of `f` -/
theorem sep_mapSet {h h' : Heap} {m : SliceMap} {f : Str} {c : Slice} (hs : Sep h m)
    (hl : h.length ≤ h'.length)
    (hframe : ∀ q s, q ≠ f → mapGet m q = some s → h'.arrayAt s.arr = h.arrayAt s.arr)
    (hc : Valid h' c) (hnew : ∀ q s, q ≠ f → mapGet m q = some s → s.arr ≠ c.arr) :
    Sep h' (mapSet m f c) := by
  constructor
  · intro q s hq
    rw [mapGet_mapSet] at hq
    split at hq
    · injection hq with hq; subst hq; exact hc
    · rename_i hne
      exact valid_congr hl (hframe q s (fun h => hne h.symm) hq) (hs.valid q s hq)
  · intro q q' s s' h1 h2 ha
    rw [mapGet_mapSet] at h1 h2
    split at h1 <;> split at h2
    · rename_i e1 e2; rw [← e1, ← e2]
    · rename_i e1 e2
      injection h1 with h1
      subst h1
      exact absurd ha.symm (hnew q' s' (fun h => e2 h.symm) h2)
    · rename_i e1 e2
      injection h2 with h2
      subst h2
      exact absurd ha (hnew q s (fun h => e1 h.symm) h1)
    · exact hs.sep q q' s s' h1 h2 ha

/-! ### Clone -/

theorem cloneElem_loop (grow : Nat → Nat) (h0 : Heap) (s : Slice) (hs : Valid h0 s) :
    ∀ (n : Nat) (h : Heap) (c : Slice), n ≤ s.len → h0.length ≤ h.length → Valid h c →
    h0.length ≤ c.arr → (∀ a, a < h0.length → h.arrayAt a = h0.arrayAt a) →
    let r := (List.range' (s.len - n) n).foldl (cloneElem grow s) (h, c)
    h.length ≤ r.1.length ∧ Valid r.1 r.2 ∧ (h.length ≤ r.2.arr ∨ r.2.arr = c.arr) ∧
    (∀ a, a < h.length → a ≠ c.arr → r.1.arrayAt a = h.arrayAt a) ∧
    r.1.view r.2 = h.view c ++ (h0.view s).drop (s.len - n)
  | 0, h, c, _, hl, hc, hca, hf => by
    have := view_length hs
    simp [hc]
    omega
  | n + 1, h, c, hn, hl, hc, hca, hf => by
    have hvl := view_length hs
    rw [List.range'_succ, List.foldl_cons]
    have hview : h.view s = h0.view s := view_congr (hf _ hs.1)
    obtain ⟨a1, a2, a3, a4, a5, -, -⟩ := append_spec grow h c (((h.view s)[s.len - (n + 1)]?).getD []) hc
    rw [show cloneElem grow s (h, c) (s.len - (n + 1)) =
      h.append grow c (((h.view s)[s.len - (n + 1)]?).getD []) from rfl]
    generalize hr1 : h.append grow c (((h.view s)[s.len - (n + 1)]?).getD []) = r1 at *
    obtain ⟨h1, c1⟩ := r1
    simp only at a1 a2 a3 a4 a5
    have hne : h0.length ≤ c1.arr := by rcases a5 with ⟨h, -⟩ | h <;> omega
    have hidx : s.len - (n + 1) + 1 = s.len - n := by omega
    rw [hidx]
    obtain ⟨b1, b2, b3, b4, b5⟩ := cloneElem_loop grow h0 s hs n h1 c1 (by omega) (by omega) a1 hne (by
      intro a ha
      rw [a4 a (by omega) (by omega), hf a ha])
    refine ⟨by omega, b2, ?_, ?_, ?_⟩
    · rcases b3 with h | h
      · left; omega
      · rw [h]; rcases a5 with ⟨h, -⟩ | h
        · exact Or.inr h
        · left; omega
    · intro a ha hac
      rw [b4 a (by omega), a4 a ha hac]
      rcases a5 with ⟨h, -⟩ | h
      · rw [h]; exact hac
      · omega
    · rw [b5, a2, hview]
      have hlt : s.len - (n + 1) < (h0.view s).length := by omega
      rw [List.getElem?_eq_getElem hlt, List.append_assoc]
      congr 1
      rw [Option.getD_some, List.singleton_append, ← hidx, List.getElem_cons_drop]

theorem cloneElem_all (grow : Nat → Nat) (h : Heap) (s : Slice) (hs : Valid h s) :
    let r := (List.range s.len).foldl (cloneElem grow s) (h.alloc [])
    h.length ≤ r.1.length ∧ Valid r.1 r.2 ∧ h.length ≤ r.2.arr ∧
    (∀ a, a < h.length → r.1.arrayAt a = h.arrayAt a) ∧ r.1.view r.2 = h.view s := by
  have hal : ∀ a, a < h.length → arrayAt (h ++ [[]]) a = h.arrayAt a :=
    fun a ha => arrayAt_append_left h [] ha
  obtain ⟨b1, b2, b3, b4, b5⟩ := cloneElem_loop grow h s hs s.len (h ++ [[]]) ⟨h.length, 0, 0⟩
    (Nat.le_refl _) (by simp) ⟨by simp, by simp [arrayAt]⟩ (Nat.le_refl _) hal
  rw [Nat.sub_self, ← List.range_eq_range'] at b1 b2 b3 b4 b5
  rw [show (h.alloc []) = (h ++ [[]], ⟨h.length, 0, 0⟩) from rfl]
  refine ⟨?_, b2, ?_, ?_, ?_⟩
  · simp at b1; omega
  · rcases b3 with h | h
    · simp at h; omega
    · rw [h]; exact Nat.le_refl _
  · intro a ha
    rw [b4 a (by simp; omega) (by simp; omega), hal a ha]
  · rw [b5]
    simp [view]

/-- the loop of `Clone` -/
theorem clone_loop (grow : Nat → Nat) (h0 : Heap) (sub : SliceMap) (hsub : Sep h0 sub) :
    ∀ (ks : List Str) (h : Heap) (m : SliceMap), ks.Nodup → (∀ k ∈ ks, mapGet m k = none) →
    (∀ k ∈ ks, ∃ s, mapGet sub k = some s) →
    Sep h m → h0.length ≤ h.length → (∀ a, a < h0.length → h.arrayAt a = h0.arrayAt a) →
    (∀ k s, mapGet m k = some s → h0.length ≤ s.arr) →
    let r := ks.foldl (cloneKey grow sub) (h, m)
    Sep r.1 r.2 ∧ h0.length ≤ r.1.length ∧ (∀ a, a < h0.length → r.1.arrayAt a = h0.arrayAt a) ∧
    (∀ k s, mapGet r.2 k = some s → h0.length ≤ s.arr) ∧
    (∀ q, look r.1 r.2 q = if q ∈ ks then look h0 sub q else look h m q)
  | [], h, m, _, _, _, hm, hl, hf, hn => by
    refine ⟨hm, hl, hf, hn, ?_⟩
    intro q; simp
  | k :: ks, h, m, hnd, hnone, hin, hm, hl, hf, hn => by
    rw [List.nodup_cons] at hnd
    obtain ⟨s, hs⟩ := hin k (by simp)
    have hsv := hsub.valid k s hs
    have hsv' : Valid h s := valid_congr hl (hf _ hsv.1) hsv
    obtain ⟨a1, a2, a3, a4, a5⟩ := cloneElem_all grow h s hsv'
    rw [List.foldl_cons]
    have hstep : cloneKey grow sub (h, m) k =
        (((List.range s.len).foldl (cloneElem grow s) (h.alloc [])).1,
          mapSet m k ((List.range s.len).foldl (cloneElem grow s) (h.alloc [])).2) := by
      unfold cloneKey; rw [hs]
    rw [hstep]
    generalize (List.range s.len).foldl (cloneElem grow s) (h.alloc []) = r1 at *
    obtain ⟨h1, c1⟩ := r1
    simp only at *
    have hm1 : Sep h1 (mapSet m k c1) := by
      apply sep_mapSet hm a1 _ a2
      · intro q s' _ hq
        have := (hm.valid q s' hq).1
        omega
      · intro q s' _ hq
        exact a4 _ (hm.valid q s' hq).1
    obtain ⟨b1, b2, b3, b4, b5⟩ := clone_loop grow h0 sub hsub ks h1 (mapSet m k c1) hnd.2 (by
        intro k' hk'
        rw [mapGet_mapSet, if_neg]
        · exact hnone k' (by simp [hk'])
        · rintro rfl; exact hnd.1 hk') (fun k' hk' => hin k' (by simp [hk'])) hm1 (by omega) (by
        intro a ha
        rw [a4 a (by omega), hf a ha]) (by
        intro k' s' hg
        rw [mapGet_mapSet] at hg
        split at hg
        · injection hg with hg; subst hg; omega
        · exact hn k' s' hg)
    refine ⟨b1, b2, b3, b4, ?_⟩
    intro q
    rw [b5]
    by_cases hq : q ∈ ks
    · simp [hq]
    · rw [if_neg hq]
      by_cases hqk : q = k
      · subst hqk
        simp only [List.mem_cons, true_or, if_true]
        unfold look
        rw [mapGet_mapSet, if_pos rfl, hs]
        simp only [Option.map_some]
        rw [a5, view_congr (hf _ hsv.1)]
      · have hnm : q ∉ k :: ks := by simp [hqk, hq]
        rw [if_neg hnm]
        unfold look
        rw [mapGet_mapSet, if_neg (fun h => hqk h.symm)]
        cases hg : mapGet m q with
        | none => rfl
        | some s' =>
          simp only [Option.map_some]
          rw [view_congr (a4 _ (hm.valid q s' hg).1)]

theorem nodup_mapKeys {α : Type} {m : List (Str × α)} (hm : IsMap m) : (mapKeys m).Nodup :=
  (mapKeys_lt hm).imp fun {a b} (h : a < b) (heq : a = b) => by subst heq; exact List.lt_irrefl _ h

theorem clone_spec (grow : Nat → Nat) (h : Heap) (sub : SliceMap) (hm : IsMap sub) (hsub : Sep h sub) :
    Sep (clone grow h sub).1 (clone grow h sub).2 ∧ h.length ≤ (clone grow h sub).1.length ∧
    (∀ a, a < h.length → (clone grow h sub).1.arrayAt a = h.arrayAt a) ∧
    (∀ k s, mapGet (clone grow h sub).2 k = some s → h.length ≤ s.arr) ∧
    (∀ q, look (clone grow h sub).1 (clone grow h sub).2 q = look h sub q) := by
  obtain ⟨b1, b2, b3, b4, b5⟩ := clone_loop grow h sub hsub (mapKeys sub) h []
    (nodup_mapKeys hm) (by simp [mapGet]) (by
      intro k hk
      rw [mem_mapKeys] at hk
      exact (mapGet_isSome _ _).mpr hk) ⟨by simp [mapGet], by simp [mapGet]⟩ (Nat.le_refl _)
    (fun _ _ => rfl) (by simp [mapGet])
  refine ⟨b1, b2, b3, b4, ?_⟩
  intro q
  rw [clone, b5]
  split
  · rfl
  · rename_i hq
    rw [mem_mapKeys] at hq
    unfold look
    rw [(mapGet_none sub q).mpr hq]
    rfl

end Gosstrak
