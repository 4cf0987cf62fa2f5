import Verif.Proofs.Legacy
import Verif.Spec.Legacy

/-! What the stale snapshot makes of a deletion; histories of calls with maps of the caller's own. -/
namespace Gosstrak

open Heap

/-! ### the stale snapshot -/

theorem stale_hit (ds : List Str) (a : List Str) :
    (ds.foldl staleStep (a, true)).2 = true := by
  induction ds generalizing a with
  | nil => rfl
  | cons d ds ih =>
    rw [List.foldl_cons]
    unfold staleStep
    split
    · exact ih _
    · exact ih _

theorem stale_none {ds a : List Str} (h : ∀ d ∈ ds, d ∉ a) (b : Bool) :
    ds.foldl staleStep (a, b) = (a, b) := by
  induction ds with
  | nil => rfl
  | cons d ds ih =>
    have : staleStep (a, b) d = (a, b) := if_neg (h d (by simp))
    rw [List.foldl_cons, this]
    exact ih fun d' hd' => h d' (by simp [hd'])

theorem stale_some {ds a : List Str} (h : ∃ d ∈ ds, d ∈ a) :
    (ds.foldl staleStep (a, false)).2 = true := by
  induction ds with
  | nil => simp at h
  | cons d ds ih =>
    rw [List.foldl_cons]
    by_cases hd : d ∈ a
    · have : staleStep (a, false) d = (a.erase d ++ a.drop (a.length - 1), true) := if_pos hd
      rw [this]; exact stale_hit ds _
    · have : staleStep (a, false) d = (a, false) := if_neg hd
      rw [this]
      apply ih
      obtain ⟨x, hx, hxa⟩ := h
      rcases List.mem_cons.mp hx with rfl | hx
      · exact absurd hxa hd
      · exact ⟨x, hx, hxa⟩

theorem staleDelete_none {a ds : List Str} (h : ∀ d ∈ ds, d ∉ a) :
    (staleDelete a ds).getD [] = a := by
  unfold staleDelete
  rw [stale_none h]
  dsimp only
  simp only [Bool.false_eq_true, if_false]
  split
  · rename_i h0
    rw [List.length_eq_zero_iff.mp h0]; rfl
  · rfl

theorem staleDelete_length {a ds : List Str} (h : ∃ d ∈ ds, d ∈ a) :
    ((staleDelete a ds).getD []).length = a.length - 1 := by
  have h1 := stale_some h
  have h2 := staleRun_length ds (a, false)
  dsimp only at h2
  unfold staleDelete
  dsimp only
  rw [h1]
  simp only [if_true]
  have hl : ((List.foldl staleStep (a, false) ds).1.take (a.length - 1)).length = a.length - 1 := by
    rw [List.length_take]; omega
  split
  · rename_i h0
    rw [hl] at h0
    rw [h0]; rfl
  · rw [Option.getD_some, hl]

/-- all the given patterns that are present are equal to `d` -/
theorem staleDelete_one {a ds : List Str} {d : Str} (hds : d ∈ ds) (hd : d ∈ a)
    (hone : ds = [d] ∨ a.Nodup) (honly : ∀ x ∈ ds, x ∈ a → x = d) :
    (staleDelete a ds).getD [] = a.erase d := by
  have hpos := List.length_pos_of_mem hd
  have hel : (a.erase d).length = a.length - 1 := List.length_erase_of_mem hd
  have hfirst : staleStep (a, false) d = (a.erase d ++ a.drop (a.length - 1), true) := if_pos hd
  -- the state once `d` has been removed does not change any more
  have key : ds.foldl staleStep (a, false) = (a.erase d ++ a.drop (a.length - 1), true) := by
    rcases hone with rfl | hnd
    · rw [List.foldl_cons, List.foldl_nil, hfirst]
    · have stable : ∀ xs : List Str, (∀ x ∈ xs, x ∈ a → x = d) →
          xs.foldl staleStep (a.erase d ++ a.drop (a.length - 1), true) =
            (a.erase d ++ a.drop (a.length - 1), true) := by
        intro xs
        induction xs with
        | nil => intro _; rfl
        | cons x xs ih =>
          intro hx
          rw [List.foldl_cons]
          have : staleStep (a.erase d ++ a.drop (a.length - 1), true) x =
              (a.erase d ++ a.drop (a.length - 1), true) := by
            by_cases hxb : x ∈ a.erase d ++ a.drop (a.length - 1)
            · have hxa : x ∈ a := by
                rcases List.mem_append.mp hxb with h | h
                · exact List.mem_of_mem_erase h
                · exact List.mem_of_mem_drop h
              have hxd := hx x (by simp) hxa
              subst hxd
              have hne : x ∉ a.erase x := hnd.not_mem_erase
              have hdl : (a.drop (a.length - 1)).length = 1 := by
                rw [List.length_drop]; omega
              have hin : x ∈ a.drop (a.length - 1) := by
                rcases List.mem_append.mp hxb with h | h
                · exact absurd h hne
                · exact h
              obtain ⟨y, hy⟩ := List.length_eq_one_iff.mp hdl
              have hyx : y = x := by rw [hy] at hin; exact (List.mem_singleton.mp hin).symm
              subst hyx
              have : staleStep (a.erase y ++ a.drop (a.length - 1), true) y =
                ((a.erase y ++ a.drop (a.length - 1)).erase y ++
                  (a.erase y ++ a.drop (a.length - 1)).drop
                    ((a.erase y ++ a.drop (a.length - 1)).length - 1), true) := if_pos hxb
              rw [this, hy, List.erase_append_right _ hne]
              simp
            · exact if_neg hxb
          rw [this]
          exact ih fun y hy => hx y (by simp [hy])
      have before : ∀ xs : List Str, d ∈ xs → (∀ x ∈ xs, x ∈ a → x = d) →
          xs.foldl staleStep (a, false) = (a.erase d ++ a.drop (a.length - 1), true) := by
        intro xs
        induction xs with
        | nil => intro h; simp at h
        | cons x xs ih =>
          intro hdx hx
          rw [List.foldl_cons]
          by_cases hxa : x ∈ a
          · have hxd := hx x (by simp) hxa
            rw [hxd, hfirst]
            exact stable xs fun y hy => hx y (by simp [hy])
          · have : staleStep (a, false) x = (a, false) := if_neg hxa
            rw [this]
            rcases List.mem_cons.mp hdx with rfl | h
            · exact absurd hd hxa
            · exact ih h fun y hy => hx y (by simp [hy])
      exact before ds hds honly
  unfold staleDelete
  rw [key]
  simp only [if_true]
  rw [← hel, List.take_left]
  split
  · rename_i h0
    rw [List.length_eq_zero_iff.mp h0]; rfl
  · rfl

/-! ### maps of the caller's own -/

/-- a map literal: every list of patterns in an array of its own -/
def allocMap : Heap → Subs → Heap × SliceMap
  | h, [] => (h, [])
  | h, e :: l =>
    let r := h.alloc e.2
    let r' := allocMap r.1 l
    (r'.1, (e.1, r.2) :: r'.2)

theorem allocMap_spec : ∀ (sub : Subs) (h : Heap), IsMap sub →
    Sep (allocMap h sub).1 (allocMap h sub).2 ∧ h.length ≤ (allocMap h sub).1.length ∧
    (∀ a, a < h.length → (allocMap h sub).1.arrayAt a = h.arrayAt a) ∧
    (∀ k s, mapGet (allocMap h sub).2 k = some s → h.length ≤ s.arr) ∧
    (∀ q, look (allocMap h sub).1 (allocMap h sub).2 q = mapGet sub q) ∧
    (allocMap h sub).2.map Prod.fst = sub.map Prod.fst
  | [], h, _ => ⟨⟨by simp [allocMap, mapGet], by simp [allocMap, mapGet]⟩, Nat.le_refl _, fun _ _ => rfl,
      by simp [allocMap, mapGet], by simp [look, allocMap, mapGet], rfl⟩
  | (k, v) :: l, h, hm => by
    have hk : k ∉ l.map Prod.fst := (List.nodup_cons.mp hm).1
    have hl : IsMap l := (List.nodup_cons.mp hm).2
    obtain ⟨a1, a2, a3, a4, a5, a6⟩ := allocMap_spec l (h.alloc v).1 hl
    have hlen : (h.alloc v).1.length = h.length + 1 := by simp [alloc]
    unfold allocMap
    dsimp only
    generalize allocMap (h.alloc v).1 l = r at *
    have hnew : r.1.arrayAt h.length = v := by
      rw [a3 _ (by omega)]; exact arrayAt_append_new h v
    have hvalid : Valid r.1 (h.alloc v).2 := by
      refine ⟨?_, ?_⟩
      · show h.length < _; omega
      · show _ ≤ (r.1.arrayAt h.length).length
        rw [hnew]; simp [alloc]
    have hget : ∀ q, mapGet ((k, (h.alloc v).2) :: r.2) q =
        if k = q then some (h.alloc v).2 else mapGet r.2 q := by
      intro q; simp [mapGet]
    refine ⟨⟨?_, ?_⟩, by omega, ?_, ?_, ?_, by simp [a6]⟩
    · intro q s hq
      rw [hget] at hq
      split at hq
      · injection hq with hq; subst hq; exact hvalid
      · exact a1.valid q s hq
    · intro q q' s s' hq hq' ha
      rw [hget] at hq hq'
      split at hq <;> split at hq'
      · rename_i h1 h2; rw [← h1, ← h2]
      · injection hq with hq
        subst hq
        have := a4 _ _ hq'
        have : (h.alloc v).2.arr = h.length := rfl
        omega
      · injection hq' with hq'
        subst hq'
        have := a4 _ _ hq
        have : (h.alloc v).2.arr = h.length := rfl
        omega
      · exact a1.sep _ _ _ _ hq hq' ha
    · intro a ha
      rw [a3 a (by omega)]
      exact arrayAt_append_left h v ha
    · intro q s hq
      rw [hget] at hq
      split at hq
      · injection hq with hq; subst hq; exact Nat.le_refl _
      · have := a4 q s hq; omega
    · intro q
      unfold look
      rw [hget]
      by_cases hkq : k = q
      · rw [if_pos hkq]
        simp only [mapGet, hkq, if_true, Option.map_some]
        congr 1
        show List.take v.length (List.drop 0 (r.1.arrayAt h.length)) = v
        rw [hnew]; simp
      · rw [if_neg hkq]
        have := a5 q
        unfold look at this
        rw [this]
        simp [mapGet, hkq]

/-- one call on the engine with a map of the caller's own (legacy_engine.go:20-50) -/
def legacyApply (grow : Nat → Nat) (st : Heap × SliceMap) : SubsOp → Heap × SliceMap
  | .add s => let r := allocMap st.1 s; legacyAdd grow r.2 (r.1, st.2)
  | .delete s => let r := allocMap st.1 s; legacyDelete r.2 (r.1, st.2)

/-! ### keys stay distinct -/

theorem isMap_legacyAddKey (grow : Nat → Nat) (sub : SliceMap) (st : Heap × SliceMap) (f : Str)
    (h : IsMap st.2) : IsMap (legacyAddKey grow sub st f).2 := by
  unfold legacyAddKey
  cases mapGet sub f with
  | none => exact h
  | some s =>
    dsimp only
    cases mapGet st.2 f with
    | none => exact isMap_mapSet h _ _
    | some snap =>
      have : ∀ (js : List Nat) (st : Heap × SliceMap), IsMap st.2 →
          IsMap (js.foldl (legacyAddElem grow f snap s) st).2 := by
        intro js
        induction js with
        | nil => intro st h; exact h
        | cons j js ih =>
          intro st h
          rw [List.foldl_cons]
          apply ih
          unfold legacyAddElem
          dsimp only
          split
          · exact h
          · split
            · exact h
            · exact isMap_mapSet h _ _
      exact this _ _ h

theorem isMap_legacyDeleteKey (sub : SliceMap) (st : Heap × SliceMap) (f : Str)
    (h : IsMap st.2) : IsMap (legacyDeleteKey sub st f).2 := by
  unfold legacyDeleteKey
  cases mapGet sub f with
  | none => exact h
  | some s =>
    dsimp only
    cases mapGet st.2 f with
    | none => exact h
    | some snap =>
      have hl : ∀ (js : List Nat) (st : Heap × SliceMap), IsMap st.2 →
          IsMap (js.foldl (legacyDeleteElem f snap s) st).2 := by
        intro js
        induction js with
        | nil => intro st h; exact h
        | cons j js ih =>
          intro st h
          rw [List.foldl_cons]
          apply ih
          unfold legacyDeleteElem
          dsimp only
          split
          · exact h
          · exact isMap_mapSet h _ _
      have := hl (List.range s.len) st h
      dsimp only
      split
      · exact this
      · split
        · exact isMap_mapDelete this _
        · exact this

theorem isMap_keys (step : Heap × SliceMap → Str → Heap × SliceMap)
    (hstep : ∀ st f, IsMap st.2 → IsMap (step st f).2) : ∀ (ks : List Str) (st : Heap × SliceMap),
    IsMap st.2 → IsMap (ks.foldl step st).2
  | [], _, h => h
  | k :: ks, st, h => isMap_keys step hstep ks (step st k) (hstep st k h)

theorem isMap_clone (grow : Nat → Nat) (h : Heap) (sub : SliceMap) : IsMap (clone grow h sub).2 := by
  apply isMap_keys
  · intro st f h
    unfold cloneKey
    split
    · exact h
    · exact isMap_mapSet h _ _
  · simp [IsMap]

theorem isMap_legacyApply (grow : Nat → Nat) (st : Heap × SliceMap) (op : SubsOp) (h : IsMap st.2) :
    IsMap (legacyApply grow st op).2 := by
  cases op with
  | add s => exact isMap_keys _ (fun st f h => isMap_legacyAddKey grow _ st f h) _ _ h
  | delete s => exact isMap_keys _ (fun st f h => isMap_legacyDeleteKey _ st f h) _ _ h

/-! ### one call -/

theorem sep_alloc {h : Heap} {m : SliceMap} (hm : Sep h m) {sub : Subs} (hs : IsMap sub) :
    Sep (allocMap h sub).1 m ∧ (∀ q, look (allocMap h sub).1 m q = look h m q) ∧
    ∀ k s q s', mapGet (allocMap h sub).2 k = some s → mapGet m q = some s' → s'.arr ≠ s.arr := by
  obtain ⟨-, a2, a3, a4, -, -⟩ := allocMap_spec sub h hs
  refine ⟨⟨?_, hm.sep⟩, ?_, ?_⟩
  · intro f s hf
    have hv := hm.valid f s hf
    exact valid_congr a2 (a3 _ hv.1) hv
  · intro q
    unfold look
    cases hq : mapGet m q with
    | none => rfl
    | some s =>
      simp only [Option.map_some]
      rw [view_congr (a3 _ (hm.valid q s hq).1)]
  · intro k s q s' hk hq
    have := a4 k s hk
    have := (hm.valid q s' hq).1
    omega

theorem legacyApply_spec (grow : Nat → Nat) (h : Heap) (m : SliceMap) (hm : Sep h m) (op : SubsOp)
    (hop : IsMap op.sub) :
    Sep (legacyApply grow (h, m) op).1 (legacyApply grow (h, m) op).2 ∧
    ∀ q, look (legacyApply grow (h, m) op).1 (legacyApply grow (h, m) op).2 q =
      match op with
      | .add s => (match mapGet s q, look h m q with
          | none, old => old
          | some new, none => some new
          | some new, some old => some (wishAdd old new))
      | .delete s => (match mapGet s q, look h m q with
          | some ds, some old => staleDelete old ds
          | _, old => old) := by
  cases op with
  | add s =>
    have hop : IsMap s := hop
    obtain ⟨a1, a2, a3, a4, a5, a6⟩ := allocMap_spec s h hop
    obtain ⟨b1, b2, b3⟩ := sep_alloc hm hop
    have hmap : IsMap (allocMap h s).2 := by unfold IsMap; rw [a6]; exact hop
    obtain ⟨h', m', e1, e2, e3⟩ := legacyAdd_spec grow (allocMap h s).1 (allocMap h s).2 m hmap a1 b1 b3
    have : legacyApply grow (h, m) (.add s) = (h', m') := e1
    rw [this]
    refine ⟨e2, fun q => ?_⟩
    rw [e3, a5, b2]
    rfl
  | delete s =>
    have hop : IsMap s := hop
    obtain ⟨a1, a2, a3, a4, a5, a6⟩ := allocMap_spec s h hop
    obtain ⟨b1, b2, b3⟩ := sep_alloc hm hop
    have hmap : IsMap (allocMap h s).2 := by unfold IsMap; rw [a6]; exact hop
    obtain ⟨h', m', e1, e2, e3⟩ := legacyDelete_spec (allocMap h s).1 (allocMap h s).2 m hmap a1 b1 b3
    have : legacyApply grow (h, m) (.delete s) = (h', m') := e1
    rw [this]
    refine ⟨e2, fun q => ?_⟩
    rw [e3, a5, b2]
    rfl

/-! ### writes through one of two maps -/

/-- `m[k][i] = v`, if the key and the index exist (else the program panics) -/
def writeElem (m : SliceMap) (h : Heap) (k : Str) (i : Nat) (v : Str) : Heap :=
  match mapGet m k with
  | none => h
  | some s => if i < s.len then h.write s i v else h

/-- two heaps agree on a set of arrays -/
def Agree (P : Nat → Prop) (h h' : Heap) : Prop :=
  h.length = h'.length ∧ ∀ a, P a → h.arrayAt a = h'.arrayAt a

theorem write_length (m : SliceMap) (h : Heap) (k : Str) (i : Nat) (v : Str) :
    (writeElem m h k i v).length = h.length := by
  unfold writeElem
  split
  · rfl
  · split
    · simp [write]
    · rfl

theorem agree_inside {P : Nat → Prop} {m : SliceMap} {h h' : Heap}
    (hv : ∀ k s, mapGet m k = some s → s.arr < h.length)
    (ha : Agree P h h') (k : Str) (i : Nat) (v : Str) :
    Agree P (writeElem m h k i v) (writeElem m h' k i v) := by
  refine ⟨by rw [write_length, write_length, ha.1], ?_⟩
  intro a hPa
  unfold writeElem
  cases hk : mapGet m k with
  | none => exact ha.2 a hPa
  | some s =>
    dsimp only
    split
    · have := hv k s hk
      unfold write
      rw [arrayAt_modify _ _ _ _ this, arrayAt_modify _ _ _ _ (by rw [← ha.1]; exact this)]
      split
      · rename_i h1; rw [← h1, ha.2 a hPa]
      · exact ha.2 a hPa
    · exact ha.2 a hPa

theorem agree_outside {P : Nat → Prop} {m : SliceMap} {h h' : Heap}
    (hv : ∀ k s, mapGet m k = some s → s.arr < h.length ∧ ¬ P s.arr)
    (ha : Agree P h h') (k : Str) (i : Nat) (v : Str) : Agree P (writeElem m h k i v) h' := by
  refine ⟨by rw [write_length, ha.1], ?_⟩
  intro a hPa
  rw [← ha.2 a hPa]
  unfold writeElem
  cases hk : mapGet m k with
  | none => rfl
  | some s =>
    dsimp only
    split
    · obtain ⟨h1, h2⟩ := hv k s hk
      unfold write
      rw [arrayAt_modify _ _ _ _ h1, if_neg]
      rintro rfl; exact h2 hPa
    · rfl

end Gosstrak
