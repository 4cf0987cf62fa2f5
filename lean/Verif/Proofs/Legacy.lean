import Verif.Proofs.Heap

/-! `AddSubscription` and `DeleteSubscription` of the legacy engine. -/
namespace Gosstrak

open Heap

theorem stringIndex_none (a : Str) (l : List Str) : stringIndex a l = none ↔ a ∉ l := by
  induction l with
  | nil => simp [stringIndex]
  | cons b l ih =>
    unfold stringIndex
    by_cases h : b = a
    · simp [h]
    · have : ¬ a = b := fun h' => h h'.symm
      simp [h, ih, this]

theorem stringIndex_some {a : Str} {l : List Str} {i : Nat} (h : stringIndex a l = some i) :
    i < l.length ∧ l.take i ++ l.drop (i + 1) = l.erase a := by
  induction l generalizing i with
  | nil => simp [stringIndex] at h
  | cons b l ih =>
    unfold stringIndex at h
    by_cases hb : b = a
    · rw [if_pos hb] at h
      injection h with h
      subst h
      simp [hb]
    · rw [if_neg hb, Option.map_eq_some_iff] at h
      obtain ⟨j, hj, rfl⟩ := h
      obtain ⟨h1, h2⟩ := ih hj
      refine ⟨by simp; omega, ?_⟩
      rw [List.erase_cons_tail (by simpa using hb)]
      simp [h2]

theorem view_eq (h : Heap) (s : Slice) :
    h.view s = ((h.arrayAt s.arr).take (s.off + s.len)).drop s.off := by
  unfold view
  rw [List.drop_take]
  congr 1
  omega

theorem view_of_take {h h' : Heap} {s : Slice} {n : Nat} (hn : s.off + s.len ≤ n)
    (ht : (h'.arrayAt s.arr).take n = (h.arrayAt s.arr).take n) : h'.view s = h.view s := by
  rw [view_eq, view_eq]
  have : ∀ l : List Str, l.take (s.off + s.len) = (l.take n).take (s.off + s.len) := by
    intro l; rw [List.take_take, Nat.min_eq_left hn]
  rw [this, ht, ← this]

theorem range_map_getD (l : List Str) :
    (List.range l.length).map (fun j => (l[j]?).getD []) = l := by
  apply List.ext_getElem
  · simp
  · intro i h1 h2
    simp [List.getElem?_eq_getElem h2]

/-! ### add -/

theorem addElem_loop (grow : Nat → Nat) (h0 : Heap) (m0 : SliceMap) (f : Str) (snap s : Slice)
    (hm0 : Sep h0 m0) (hsnap : mapGet m0 f = some snap) (hs : Valid h0 s)
    (hsep : ∀ q s', mapGet m0 q = some s' → s'.arr ≠ s.arr) :
    ∀ (js : List Nat) (h : Heap) (m : SliceMap) (cur : Slice),
    Step f (fun _ => False) h0 m0 h m → mapGet m f = some cur →
    h.view s = h0.view s → h.view snap = h0.view snap →
    (cur.arr = snap.arr → cur.off = snap.off ∧ snap.len ≤ cur.len) →
    (cur.arr = snap.arr ∨ h0.length ≤ cur.arr) →
    ∃ h' m' cur', js.foldl (legacyAddElem grow f snap s) (h, m) = (h', m') ∧
      Step f (fun _ => False) h0 m0 h' m' ∧ mapGet m' f = some cur' ∧
      h'.view cur' = h.view cur ++ (js.map fun j => ((h0.view s)[j]?).getD []).filter
        fun d => decide (d ∉ h0.view snap)
  | [], h, m, cur, hst, hcur, _, _, _, _ => ⟨h, m, cur, rfl, hst, hcur, by simp⟩
  | j :: js, h, m, cur, hst, hcur, hvs, hvsnap, hpos, hpos' => by
    rw [List.foldl_cons]
    by_cases hin : ((h0.view s)[j]?).getD [] ∈ h0.view snap
    · have hx : stringIndex (((h0.view s)[j]?).getD []) (h0.view snap) ≠ none := by
        rw [Ne, stringIndex_none]; exact fun h => h hin
      have hstep : legacyAddElem grow f snap s (h, m) j = (h, m) := by
        unfold legacyAddElem
        dsimp only
        rw [hvs, hvsnap]
        split
        · rfl
        · contradiction
      rw [hstep]
      obtain ⟨h', m', cur', e1, e2, e3, e4⟩ := addElem_loop grow h0 m0 f snap s hm0 hsnap hs hsep js
        h m cur hst hcur hvs hvsnap hpos hpos'
      refine ⟨h', m', cur', e1, e2, e3, ?_⟩
      rw [e4, List.map_cons, List.filter_cons_of_neg (by simpa using hin)]
    · have hx : stringIndex (((h0.view s)[j]?).getD []) (h0.view snap) = none := by
        rw [stringIndex_none]; exact hin
      have hcv := hst.sep.valid f cur hcur
      obtain ⟨a1, a2, a3, a4, a5, a6, a7⟩ := append_spec grow h cur (((h0.view s)[j]?).getD []) hcv
      have hstep : legacyAddElem grow f snap s (h, m) j =
          ((h.append grow cur (((h0.view s)[j]?).getD [])).1,
            mapSet m f (h.append grow cur (((h0.view s)[j]?).getD [])).2) := by
        unfold legacyAddElem
        dsimp only
        rw [hvs, hvsnap, hx]
        simp only [hcur]
      rw [hstep]
      generalize h.append grow cur (((h0.view s)[j]?).getD []) = r at *
      obtain ⟨h1, c1⟩ := r
      dsimp only at a1 a2 a3 a4 a5 a6 a7 ⊢
      have hl := hst.len
      have hsnapv := hm0.valid f snap hsnap
      have hst1 : Step f (fun _ => False) h0 m0 h1 (mapSet m f c1) := by
        refine ⟨?_, by omega, ?_, ?_, ?_⟩
        · apply sep_mapSet hst.sep a3 _ a1
          · intro q s' hq hg hc
            have hv := (hst.sep.valid q s' hg).1
            rcases a5 with ⟨h5, -⟩ | h5
            · exact hq (hst.sep.sep _ _ _ _ hg hcur (hc.trans h5))
            · omega
          · intro q s' hq hg
            apply a4 _ (hst.sep.valid q s' hg).1
            intro hc
            exact hq (hst.sep.sep _ _ _ _ hg hcur hc)
        · intro a ha hna
          rw [a4 a (by omega), hst.frame a ha hna]
          rcases hpos' with h5 | h5
          · rw [h5]; exact fun h => hna snap hsnap h.symm
          · omega
        · intro q hq
          rw [mapGet_mapSet, if_neg (fun h => hq h.symm)]
          exact hst.other q hq
        · intro s' hs'
          rw [mapGet_mapSet, if_pos rfl] at hs'
          injection hs' with hs'
          subst hs'
          rcases a5 with ⟨h5, -⟩ | h5
          · rcases hpos' with h6 | h6
            · exact Or.inl ⟨snap, hsnap, by rw [h5, h6]⟩
            · exact Or.inr (Or.inr (by rw [h5]; exact h6))
          · exact Or.inr (Or.inr (by omega))
      have hsne : s.arr ≠ cur.arr := by
        rcases hpos' with h6 | h6
        · rw [h6]; exact fun h => hsep f snap hsnap h.symm
        · have := hs.1; omega
      obtain ⟨h', m', cur', e1, e2, e3, e4⟩ := addElem_loop grow h0 m0 f snap s hm0 hsnap hs hsep js
        h1 (mapSet m f c1) c1 hst1 (by rw [mapGet_mapSet, if_pos rfl])
        (by rw [← hvs]; exact view_congr (a4 _ (by have := hs.1; omega) hsne))
        (by
          rw [← hvsnap]
          by_cases hc : snap.arr = cur.arr
          · obtain ⟨p1, p2⟩ := hpos hc.symm
            apply view_of_take (n := cur.off + cur.len) (by omega)
            rw [hc]; exact a7
          · exact view_congr (a4 _ (by have := hsnapv.1; omega) hc))
        (by
          intro hc
          rcases a5 with ⟨h5, h6, h7⟩ | h5
          · obtain ⟨p1, p2⟩ := hpos (by rw [← h5, hc])
            omega
          · have := hsnapv.1; omega)
        (by
          rcases a5 with ⟨h5, -⟩ | h5
          · rw [h5]; exact hpos'
          · right; omega)
      refine ⟨h', m', cur', e1, e2, e3, ?_⟩
      rw [e4, a2, List.map_cons, List.filter_cons_of_pos (by simpa using hin)]
      simp

/-- one key of `AddSubscription` -/
theorem addKey_spec (grow : Nat → Nat) (sub : SliceMap) (h : Heap) (m : SliceMap) (f : Str) (s : Slice)
    (hm : Sep h m) (hsub : mapGet sub f = some s) (hs : Valid h s)
    (hsep : ∀ q s', mapGet m q = some s' → s'.arr ≠ s.arr) :
    ∃ h' m', legacyAddKey grow sub (h, m) f = (h', m') ∧ Step f (· = s.arr) h m h' m' ∧
      look h' m' f = some (match look h m f with
        | none => h.view s
        | some old => old ++ (h.view s).filter fun d => decide (d ∉ old)) := by
  unfold legacyAddKey
  rw [hsub]
  dsimp only
  cases hg : mapGet m f with
  | none =>
    refine ⟨_, _, rfl, ⟨?_, Nat.le_refl _, fun _ _ _ => rfl, ?_, ?_⟩, ?_⟩
    · exact sep_mapSet hm (Nat.le_refl _) (fun _ _ _ _ => rfl) hs fun q s' _ hq => hsep q s' hq
    · intro q hq
      rw [mapGet_mapSet, if_neg (fun h => hq h.symm)]
    · intro s' hs'
      rw [mapGet_mapSet, if_pos rfl] at hs'
      injection hs' with hs'
      exact Or.inr (Or.inl (by rw [hs']))
    · unfold look
      rw [mapGet_mapSet, if_pos rfl, hg]
      rfl
  | some snap =>
    dsimp only
    obtain ⟨h', m', cur', e1, e2, e3, e4⟩ := addElem_loop grow h m f snap s hm hg hs hsep
      (List.range s.len) h m snap
      ⟨hm, Nat.le_refl _, fun _ _ _ => rfl, fun _ _ => rfl, fun s' hs' => Or.inl ⟨s', hs', rfl⟩⟩
      hg rfl rfl (fun _ => ⟨rfl, Nat.le_refl _⟩) (Or.inl rfl)
    refine ⟨h', m', e1, ⟨e2.sep, e2.len, e2.frame, e2.other, fun s' hs' => ?_⟩, ?_⟩
    · rcases e2.arr s' hs' with h | h | h
      · exact Or.inl h
      · exact h.elim
      · exact Or.inr (Or.inr h)
    · unfold look
      rw [e3, hg]
      simp only [Option.map_some]
      rw [e4, ← view_length hs, range_map_getD]

/-! ### delete -/

/-- one removal on the stale snapshot: the element goes, the last one stays doubled -/
def staleStep (st : List Str × Bool) (d : Str) : List Str × Bool :=
  if d ∈ st.1 then (st.1.erase d ++ st.1.drop (st.1.length - 1), true) else st

theorem staleStep_length (st : List Str × Bool) (d : Str) :
    (staleStep st d).1.length = st.1.length := by
  unfold staleStep
  split
  · rename_i h
    have := List.length_pos_of_mem h
    simp [List.length_erase_of_mem h]
  · rfl

theorem deleteElem_loop (h0 : Heap) (m0 : SliceMap) (f : Str) (snap s : Slice)
    (hm0 : Sep h0 m0) (hsnap : mapGet m0 f = some snap) (hs : Valid h0 s)
    (hsep : s.arr ≠ snap.arr) :
    ∀ (js : List Nat) (h : Heap) (m : SliceMap) (hit : Bool), h.length = h0.length →
    (∀ a, a ≠ snap.arr → h.arrayAt a = h0.arrayAt a) →
    (h.arrayAt snap.arr).length = (h0.arrayAt snap.arr).length →
    (∀ q, q ≠ f → mapGet m q = mapGet m0 q) →
    mapGet m f = some (if hit then { snap with len := snap.len - 1 } else snap) →
    ∃ h' m' hit', js.foldl (legacyDeleteElem f snap s) (h, m) = (h', m') ∧ h'.length = h0.length ∧
      (∀ a, a ≠ snap.arr → h'.arrayAt a = h0.arrayAt a) ∧
      (h'.arrayAt snap.arr).length = (h0.arrayAt snap.arr).length ∧
      (∀ q, q ≠ f → mapGet m' q = mapGet m0 q) ∧
      mapGet m' f = some (if hit' then { snap with len := snap.len - 1 } else snap) ∧
      (js.map fun j => ((h0.view s)[j]?).getD []).foldl staleStep (h.view snap, hit) =
        (h'.view snap, hit')
  | [], h, m, hit, h1, h2, h3, h4, h5 => ⟨h, m, hit, rfl, h1, h2, h3, h4, h5, rfl⟩
  | j :: js, h, m, hit, h1, h2, h3, h4, h5 => by
    have hvs : h.view s = h0.view s := view_congr (h2 _ hsep)
    have hsv := hm0.valid f snap hsnap
    have hsv' : Valid h snap := ⟨by rw [h1]; exact hsv.1, by rw [h3]; exact hsv.2⟩
    rw [List.foldl_cons, List.map_cons, List.foldl_cons]
    cases hx : stringIndex (((h0.view s)[j]?).getD []) (h.view snap) with
    | none =>
      have hstep : legacyDeleteElem f snap s (h, m) j = (h, m) := by
        unfold legacyDeleteElem
        dsimp only
        rw [hvs, hx]
      have hst : staleStep (h.view snap, hit) (((h0.view s)[j]?).getD []) = (h.view snap, hit) := by
        rw [stringIndex_none] at hx
        unfold staleStep; rw [if_neg hx]
      rw [hstep, hst]
      exact deleteElem_loop h0 m0 f snap s hm0 hsnap hs hsep js h m hit h1 h2 h3 h4 h5
    | some i =>
      obtain ⟨hi, her⟩ := stringIndex_some hx
      have hvl := view_length hsv'
      obtain ⟨r1, r2, r3, r4, r5⟩ := removeAt_spec h snap i hsv' (by omega)
      have hstep : legacyDeleteElem f snap s (h, m) j =
          ((h.removeAt snap i).1, mapSet m f (h.removeAt snap i).2) := by
        unfold legacyDeleteElem
        dsimp only
        rw [hvs, hx]
      rw [hstep]
      have hmem : ((h0.view s)[j]?).getD [] ∈ h.view snap := by
        apply Classical.byContradiction
        intro hn
        rw [(stringIndex_none _ _).mpr hn] at hx
        cases hx
      have hst : staleStep (h.view snap, hit) (((h0.view s)[j]?).getD []) =
          ((h.removeAt snap i).1.view snap, true) := by
        unfold staleStep
        rw [if_pos hmem, r5, her, hvl]
      rw [hst]
      generalize h.removeAt snap i = r at *
      obtain ⟨hh, c⟩ := r
      dsimp only at *
      exact deleteElem_loop h0 m0 f snap s hm0 hsnap hs hsep js hh (mapSet m f c) true (by omega)
        (fun a ha => by rw [r2 a ha, h2 a ha]) (by rw [r4, h3])
        (fun q hq => by rw [mapGet_mapSet, if_neg (fun h => hq h.symm), h4 q hq])
        (by rw [mapGet_mapSet, if_pos rfl, r3]; rfl)

/-- what `DeleteSubscription` leaves of the patterns `a` when told to delete `ds` -/
def staleDelete (a ds : List Str) : Option (List Str) :=
  let r := ds.foldl staleStep (a, false)
  let left := if r.2 then r.1.take (a.length - 1) else r.1
  if left.length = 0 then none else some left

theorem staleRun_length (ds : List Str) (st : List Str × Bool) :
    (ds.foldl staleStep st).1.length = st.1.length := by
  induction ds generalizing st with
  | nil => rfl
  | cons d ds ih => rw [List.foldl_cons, ih, staleStep_length]

/-- one key of `DeleteSubscription` -/
theorem deleteKey_spec (sub : SliceMap) (h : Heap) (m : SliceMap) (f : Str) (s : Slice)
    (hm : Sep h m) (hsub : mapGet sub f = some s) (hs : Valid h s)
    (hsep : ∀ q s', mapGet m q = some s' → s'.arr ≠ s.arr) :
    ∃ h' m', legacyDeleteKey sub (h, m) f = (h', m') ∧ Step f (· = s.arr) h m h' m' ∧
      look h' m' f = (match look h m f with
        | none => none
        | some old => staleDelete old (h.view s)) := by
  unfold legacyDeleteKey
  rw [hsub]
  dsimp only
  cases hg : mapGet m f with
  | none =>
    refine ⟨h, m, rfl, ⟨hm, Nat.le_refl _, fun _ _ _ => rfl, fun _ _ => rfl, ?_⟩, ?_⟩
    · intro s' hs'; rw [hg] at hs'; cases hs'
    · unfold look; rw [hg]; rfl
  | some snap =>
    dsimp only
    obtain ⟨h', m', hit, e1, e2, e3, e4, e5, e6, e7⟩ := deleteElem_loop h m f snap s hm hg hs
      (fun h => hsep f snap hg h.symm) (List.range s.len) h m false rfl (fun _ _ => rfl) rfl
      (fun _ _ => rfl) hg
    rw [← view_length hs, range_map_getD] at e7
    have hsv := hm.valid f snap hg
    have hsv' : Valid h' snap := ⟨by rw [e2]; exact hsv.1, by rw [e4]; exact hsv.2⟩
    have hvl := view_length hsv
    rw [e1]
    dsimp only
    rw [e6]
    dsimp only
    -- the slice that is left
    have hcv : Valid h' (if hit then { snap with len := snap.len - 1 } else snap) := by
      cases hit
      · exact hsv'
      · exact ⟨hsv'.1, by have := hsv'.2; simp; omega⟩
    have hview : h'.view (if hit then { snap with len := snap.len - 1 } else snap) =
        if hit then (h'.view snap).take ((h.view snap).length - 1) else h'.view snap := by
      cases hit
      · rfl
      · simp only [if_true]
        rw [hvl]
        unfold view
        rw [List.take_take, Nat.min_eq_left (Nat.sub_le _ _)]
    have harr : (if hit then { snap with len := snap.len - 1 } else snap : Slice).arr = snap.arr := by
      cases hit <;> rfl
    have hsd : staleDelete (h.view snap) (h.view s) =
        if (if hit then { snap with len := snap.len - 1 } else snap : Slice).len = 0 then none
        else some (h'.view (if hit then { snap with len := snap.len - 1 } else snap)) := by
      have hlen := view_length hcv
      unfold staleDelete
      rw [e7]
      dsimp only
      rw [← hview, hlen]
    have hstepSep : ∀ m'', (∀ q, q ≠ f → mapGet m'' q = mapGet m q) →
        (∀ s', mapGet m'' f = some s' → s'.arr = snap.arr ∧ Valid h' s') → Step f (· = s.arr) h m h' m'' := by
      intro m'' g1 g2
      refine ⟨⟨?_, ?_⟩, Nat.le_of_eq e2.symm, ?_, g1, ?_⟩
      · intro q s' hq
        by_cases hqf : q = f
        · subst hqf; exact (g2 s' hq).2
        · rw [g1 q hqf] at hq
          apply valid_congr (Nat.le_of_eq e2.symm) _ (hm.valid q s' hq)
          apply e3
          intro hc
          exact hqf (hm.sep _ _ _ _ hq hg hc)
      · intro q q' s1 s2 hq hq' ha
        by_cases hqf : q = f <;> by_cases hqf' : q' = f
        · rw [hqf, hqf']
        · subst hqf
          rw [(g2 s1 hq).1] at ha
          rw [g1 q' hqf'] at hq'
          exact hm.sep _ _ _ _ hg hq' ha
        · subst hqf'
          rw [(g2 s2 hq').1] at ha
          rw [g1 q hqf] at hq
          exact hm.sep _ _ _ _ hq hg ha
        · rw [g1 q hqf] at hq
          rw [g1 q' hqf'] at hq'
          exact hm.sep _ _ _ _ hq hq' ha
      · intro a _ hna
        exact e3 a fun h => hna snap hg h.symm
      · intro s' hs'
        exact Or.inl ⟨snap, hg, (g2 s' hs').1.symm⟩
    have hlook : look h m f = some (h.view snap) := by unfold look; rw [hg]; rfl
    rw [hlook]
    dsimp only
    rw [hsd]
    by_cases hz : (if hit then { snap with len := snap.len - 1 } else snap : Slice).len = 0
    · rw [if_pos hz, if_pos hz]
      refine ⟨h', mapDelete m' f, rfl, hstepSep _ ?_ ?_, ?_⟩
      · intro q hq
        rw [mapGet_mapDelete, if_neg (fun h => hq h.symm), e5 q hq]
      · intro s' hs'
        rw [mapGet_mapDelete, if_pos rfl] at hs'
        cases hs'
      · unfold look
        rw [mapGet_mapDelete, if_pos rfl]
        rfl
    · rw [if_neg hz, if_neg hz]
      refine ⟨h', m', rfl, hstepSep _ e5 ?_, ?_⟩
      · intro s' hs'
        rw [e6] at hs'
        injection hs' with hs'
        subst hs'
        exact ⟨harr, hcv⟩
      · unfold look
        rw [e6]
        rfl

/-! ### the loops over the keys -/

theorem key_loop (step : Heap × SliceMap → Str → Heap × SliceMap) (sub : SliceMap)
    (res : Option (List Str) → List Str → Option (List Str)) (h0 : Heap) (hsub : Sep h0 sub)
    (hstep : ∀ h m f s, Sep h m → mapGet sub f = some s → Valid h s →
      (∀ q s', mapGet m q = some s' → s'.arr ≠ s.arr) →
      ∃ h' m', step (h, m) f = (h', m') ∧ Step f (· = s.arr) h m h' m' ∧
        look h' m' f = res (look h m f) (h.view s)) :
    ∀ (ks : List Str) (h : Heap) (m : SliceMap), ks.Nodup → (∀ k ∈ ks, ∃ s, mapGet sub k = some s) →
    Sep h m → h0.length ≤ h.length →
    (∀ k ∈ ks, ∀ s, mapGet sub k = some s → h.arrayAt s.arr = h0.arrayAt s.arr ∧
      ∀ q s', mapGet m q = some s' → s'.arr ≠ s.arr) →
    ∃ h' m', ks.foldl step (h, m) = (h', m') ∧ Sep h' m' ∧ h.length ≤ h'.length ∧
      ∀ q, look h' m' q = if q ∈ ks then res (look h m q) ((look h0 sub q).getD []) else look h m q
  | [], h, m, _, _, hm, _, _ => ⟨h, m, rfl, hm, Nat.le_refl _, fun q => by simp⟩
  | k :: ks, h, m, hnd, hin, hm, hl, hf => by
    rw [List.nodup_cons] at hnd
    obtain ⟨s, hs⟩ := hin k (by simp)
    obtain ⟨f1, f2⟩ := hf k (by simp) s hs
    have hsv0 := hsub.valid k s hs
    have hsv : Valid h s := valid_congr hl f1 hsv0
    obtain ⟨h1, m1, e1, e2, e3⟩ := hstep h m k s hm hs hsv f2
    obtain ⟨h', m', g1, g2, g3, g4⟩ := key_loop step sub res h0 hsub hstep ks h1 m1 hnd.2
      (fun k' hk' => hin k' (by simp [hk'])) e2.sep (by have := e2.len; omega) (by
        intro k' hk' s1 hs1
        obtain ⟨i1, i2⟩ := hf k' (by simp [hk']) s1 hs1
        have hv1 := (hsub.valid k' s1 hs1).1
        constructor
        · rw [e2.frame _ (by omega) (fun s2 hs2 => i2 k s2 hs2), i1]
        · intro q s2 hs2
          by_cases hq : q = k
          · subst hq
            rcases e2.arr s2 hs2 with ⟨s3, h3, h4⟩ | h3 | h3
            · rw [← h4]; exact i2 q s3 h3
            · rw [h3]
              intro hc
              have := hsub.sep _ _ _ _ hs hs1 hc
              exact hnd.1 (this ▸ hk')
            · omega
          · rw [e2.other q hq] at hs2
            exact i2 q s2 hs2)
    refine ⟨h', m', by rw [List.foldl_cons, e1, g1], g2, by have := e2.len; omega, ?_⟩
    intro q
    rw [g4]
    by_cases hq : q ∈ ks
    · have hqk : q ≠ k := fun h => hnd.1 (h ▸ hq)
      rw [if_pos hq, if_pos (by simp [hq]), e2.look_other hm hqk]
    · rw [if_neg hq]
      by_cases hqk : q = k
      · subst hqk
        rw [if_pos (by simp), e3]
        congr 1
        unfold look
        rw [hs]
        exact (view_congr f1)
      · rw [if_neg (by simp [hq, hqk]), e2.look_other hm hqk]

theorem sub_keys (sub : SliceMap) : ∀ k ∈ mapKeys sub, ∃ s, mapGet sub k = some s := by
  intro k hk
  rw [mem_mapKeys] at hk
  exact (mapGet_isSome _ _).mpr hk

theorem look_none_iff (h : Heap) (sub : SliceMap) (q : Str) : look h sub q = none ↔ q ∉ mapKeys sub := by
  unfold look
  rw [Option.map_eq_none_iff, mapGet_none, mem_mapKeys]

theorem legacyAdd_spec (grow : Nat → Nat) (h : Heap) (sub m : SliceMap) (hmap : IsMap sub)
    (hsub : Sep h sub) (hm : Sep h m)
    (hdisj : ∀ k s q s', mapGet sub k = some s → mapGet m q = some s' → s'.arr ≠ s.arr) :
    ∃ h' m', legacyAdd grow sub (h, m) = (h', m') ∧ Sep h' m' ∧
      ∀ q, look h' m' q = match look h sub q, look h m q with
        | none, old => old
        | some new, none => some new
        | some new, some old => some (old ++ new.filter fun d => decide (d ∉ old)) := by
  obtain ⟨h', m', e1, e2, -, e3⟩ := key_loop (legacyAddKey grow sub) sub
    (fun old new => some (match old with
      | none => new
      | some old => old ++ new.filter fun d => decide (d ∉ old))) h hsub
    (fun h m f s a b c d => addKey_spec grow sub h m f s a b c d) (mapKeys sub) h m (nodup_mapKeys hmap)
    (sub_keys sub) hm (Nat.le_refl _) (fun k _ s hs => ⟨rfl, fun q s' hq => hdisj k s q s' hs hq⟩)
  refine ⟨h', m', e1, e2, ?_⟩
  intro q
  rw [e3]
  cases hq : look h sub q with
  | none => rw [if_neg ((look_none_iff h sub q).mp hq)]
  | some new =>
    have : q ∈ mapKeys sub := by
      apply Classical.byContradiction
      intro hn
      rw [(look_none_iff h sub q).mpr hn] at hq
      cases hq
    rw [if_pos this]
    cases look h m q <;> rfl

theorem legacyDelete_spec (h : Heap) (sub m : SliceMap) (hmap : IsMap sub)
    (hsub : Sep h sub) (hm : Sep h m)
    (hdisj : ∀ k s q s', mapGet sub k = some s → mapGet m q = some s' → s'.arr ≠ s.arr) :
    ∃ h' m', legacyDelete sub (h, m) = (h', m') ∧ Sep h' m' ∧
      ∀ q, look h' m' q = match look h sub q, look h m q with
        | some ds, some old => staleDelete old ds
        | _, old => old := by
  obtain ⟨h', m', e1, e2, -, e3⟩ := key_loop (legacyDeleteKey sub) sub
    (fun old new => (match old with
      | none => none
      | some old => staleDelete old new)) h hsub
    (fun h m f s a b c d => deleteKey_spec sub h m f s a b c d) (mapKeys sub) h m (nodup_mapKeys hmap)
    (sub_keys sub) hm (Nat.le_refl _) (fun k _ s hs => ⟨rfl, fun q s' hq => hdisj k s q s' hs hq⟩)
  refine ⟨h', m', e1, e2, ?_⟩
  intro q
  rw [e3]
  cases hq : look h sub q with
  | none => rw [if_neg ((look_none_iff h sub q).mp hq)]
  | some new =>
    have : q ∈ mapKeys sub := by
      apply Classical.byContradiction
      intro hn
      rw [(look_none_iff h sub q).mpr hn] at hq
      cases hq
    rw [if_pos this]
    cases look h m q <;> rfl

end Gosstrak
