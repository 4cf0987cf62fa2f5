import Verif.Proofs.LegacyHistory
import Verif.Props.Splay

/-! # C10, C28-C30, C32: `Clone`, the legacy engine, errors of the searches -/
namespace Gosstrak

open Heap

/-! ## C10 -/

/-- a write through the original or through the clone -/
def ElemWrite.run (orig cl : SliceMap) (h : Heap) (w : ElemWrite) : Heap :=
  writeElem (if w.toClone then cl else orig) h w.key w.index w.value

theorem runs_agree (orig cl : SliceMap) (side : Bool) (P : Nat → Prop)
    (hin : ∀ k s, mapGet (if side then cl else orig) k = some s → P s.arr)
    (hout : ∀ k s, mapGet (if side then orig else cl) k = some s → ¬ P s.arr) :
    ∀ (ws : List ElemWrite) (h h' : Heap), Agree P h h' →
    (∀ k s, mapGet orig k = some s → s.arr < h.length) →
    (∀ k s, mapGet cl k = some s → s.arr < h.length) →
    Agree P (ws.foldl (ElemWrite.run orig cl) h)
      ((ws.filter fun w => w.toClone == side).foldl (ElemWrite.run orig cl) h')
  | [], _, _, ha, _, _ => ha
  | w :: ws, h, h', ha, ho, hc => by
    rw [List.foldl_cons]
    have hlen : (ElemWrite.run orig cl h w).length = h.length := write_length _ _ _ _ _
    by_cases hw : w.toClone = side
    · rw [List.filter_cons_of_pos (by simpa using hw), List.foldl_cons]
      apply runs_agree orig cl side P hin hout ws _ _ _ (by rw [hlen]; exact ho) (by rw [hlen]; exact hc)
      apply agree_inside _ ha
      intro k s hk
      cases hw' : w.toClone <;> rw [hw'] at hk
      · exact ho k s hk
      · exact hc k s hk
    · rw [List.filter_cons_of_neg (by simpa using hw)]
      apply runs_agree orig cl side P hin hout ws _ _ _ (by rw [hlen]; exact ho) (by rw [hlen]; exact hc)
      apply agree_outside _ ha
      intro k s hk
      cases hw' : w.toClone <;> rw [hw'] at hk hw
      · cases side
        · exact absurd rfl hw
        · exact ⟨ho k s hk, hout k s hk⟩
      · cases side
        · exact ⟨hc k s hk, hout k s hk⟩
        · exact absurd rfl hw

theorem look_agree {P : Nat → Prop} {h h' : Heap} {m : SliceMap} (ha : Agree P h h')
    (hm : ∀ k s, mapGet m k = some s → P s.arr) (q : Str) : look h m q = look h' m q := by
  unfold look
  cases hq : mapGet m q with
  | none => rfl
  | some s => simp only [Option.map_some]; rw [view_congr (ha.2 _ (hm q s hq))]

/-- C10: the clone has the same keys and patterns, and the original is as before. Whatever is
    written afterwards through either map, in any order: each map shows exactly what it would show if only the
    writes through itself had happened. -/
theorem C10_clone (grow : Nat → Nat) (h : Heap) (sub : SliceMap) (hmap : IsMap sub) (hsub : Sep h sub) :
    ∃ h' cl, clone grow h sub = (h', cl) ∧ IsMap cl ∧
      (∀ q, look h' cl q = look h sub q) ∧ (∀ q, look h' sub q = look h sub q) ∧
      ∀ (ws : List ElemWrite) (q : Str),
        look (ws.foldl (ElemWrite.run sub cl) h') cl q =
          look ((ws.filter fun w => w.toClone == true).foldl (ElemWrite.run sub cl) h') cl q ∧
        look (ws.foldl (ElemWrite.run sub cl) h') sub q =
          look ((ws.filter fun w => w.toClone == false).foldl (ElemWrite.run sub cl) h') sub q := by
  obtain ⟨a1, a2, a3, a4, a5⟩ := clone_spec grow h sub hmap hsub
  have a6 := isMap_clone grow h sub
  generalize clone grow h sub = r at *
  obtain ⟨h', cl⟩ := r
  dsimp only at *
  refine ⟨h', cl, rfl, a6, a5, ?_, ?_⟩
  · intro q
    unfold look
    cases hq : mapGet sub q with
    | none => rfl
    | some s => simp only [Option.map_some]; rw [view_congr (a3 _ (hsub.valid q s hq).1)]
  · intro ws q
    have ho : ∀ k s, mapGet sub k = some s → s.arr < h.length := fun k s hk => (hsub.valid k s hk).1
    have ho' : ∀ k s, mapGet sub k = some s → s.arr < h'.length := fun k s hk =>
      Nat.lt_of_lt_of_le (ho k s hk) a2
    have hc : ∀ k s, mapGet cl k = some s → s.arr < h'.length := fun k s hk => (a1.valid k s hk).1
    constructor
    · apply look_agree (P := fun a => h.length ≤ a) _ a4
      exact runs_agree sub cl true (fun a => h.length ≤ a) a4
        (fun k s hk => Nat.not_le.mpr (ho k s hk)) ws h' h'
        ⟨rfl, fun _ _ => rfl⟩ ho' hc
    · apply look_agree (P := fun a => a < h.length) _ ho
      exact runs_agree sub cl false (fun a => a < h.length) ho
        (fun k s hk => Nat.not_lt.mpr (a4 k s hk)) ws h' h'
        ⟨rfl, fun _ _ => rfl⟩ ho' hc

theorem view_write (h : Heap) (s : Slice) (hv : Valid h s) (i : Nat) (v : Str) (hi : i < s.len) :
    (h.write s i v).view s = (h.view s).set i v := by
  unfold view write
  rw [arrayAt_modify _ _ _ _ hv.1, if_pos rfl]
  apply List.ext_getElem?
  intro j
  rw [List.getElem?_set, List.getElem?_take, List.getElem?_take]
  have := hv.2
  by_cases hj : j < s.len
  · rw [if_pos hj, if_pos hj, List.getElem?_drop, List.getElem?_drop, List.getElem?_set, List.length_take,
      List.length_drop]
    by_cases e : i = j
    · subst e
      rw [if_pos rfl, if_pos rfl, if_pos (by omega), if_pos (by omega)]
    · rw [if_neg e, if_neg (by omega)]
  · rw [if_neg hj, if_neg hj, if_neg (by omega)]

/-- a write through a map of slices acts on its content as a write to a map of lists -/
theorem look_write (m : SliceMap) (h : Heap) (hs : Sep h m) (w : ElemWrite) :
    Sep (writeElem m h w.key w.index w.value) m ∧
      look (writeElem m h w.key w.index w.value) m = w.plain (look h m) := by
  have hfix : look h m = w.plain (look h m) ∨ ∃ s, mapGet m w.key = some s ∧ w.index < s.len := by
    cases hk : mapGet m w.key with
    | none =>
      left; funext q; unfold ElemWrite.plain
      by_cases e : q = w.key
      · rw [if_pos e]; subst e; simp [look, hk]
      · rw [if_neg e]
    | some s =>
      by_cases hi : w.index < s.len
      · exact Or.inr ⟨s, rfl, hi⟩
      · left; funext q; unfold ElemWrite.plain
        by_cases e : q = w.key
        · rw [if_pos e]; subst e
          unfold look
          rw [hk, Option.map_some, Option.map_some, List.set_eq_of_length_le]
          unfold view
          rw [List.length_take]
          omega
        · rw [if_neg e]
  unfold writeElem
  cases hk : mapGet m w.key with
  | none =>
    refine ⟨hs, ?_⟩
    rcases hfix with h' | ⟨s, h', -⟩
    · exact h'
    · rw [hk] at h'; cases h'
  | some s =>
    dsimp only
    split
    · rename_i hi
      have hv := hs.valid _ _ hk
      have hlen : (h.write s w.index w.value).length = h.length := by unfold write; simp
      constructor
      · refine ⟨fun f s' hf => ?_, hs.sep⟩
        have hv' := hs.valid _ _ hf
        refine ⟨by rw [hlen]; exact hv'.1, ?_⟩
        unfold write
        rw [arrayAt_modify _ _ _ _ hv.1]
        split
        · rename_i e; rw [List.length_set, ← e]; exact hv'.2
        · exact hv'.2
      · funext q
        unfold ElemWrite.plain look
        by_cases e : q = w.key
        · rw [if_pos e]; subst e
          rw [hk, Option.map_some, Option.map_some, Option.map_some, view_write h s hv _ _ hi]
        · rw [if_neg e]
          cases hq : mapGet m q with
          | none => rfl
          | some s' =>
            rw [Option.map_some, Option.map_some]
            congr 1
            apply view_congr
            unfold write
            rw [arrayAt_modify _ _ _ _ hv.1, if_neg fun e' => e (hs.sep _ _ _ _ hq hk e')]
    · rename_i hi
      refine ⟨hs, ?_⟩
      rcases hfix with h' | ⟨s', h', hi'⟩
      · exact h'
      · rw [hk] at h'; cases h'; exact absurd hi' hi

theorem look_writes (orig cl : SliceMap) (side : Bool) : ∀ (ws : List ElemWrite) (h : Heap),
    Sep h (if side then cl else orig) → (∀ w ∈ ws, w.toClone = side) →
    look (ws.foldl (ElemWrite.run orig cl) h) (if side then cl else orig) =
      ws.foldl ElemWrite.plain (look h (if side then cl else orig))
  | [], _, _, _ => rfl
  | w :: ws, h, hs, hw => by
    have e := hw w (List.mem_cons_self ..)
    obtain ⟨h1, h2⟩ := look_write _ h hs w
    rw [List.foldl_cons, List.foldl_cons, ← h2]
    have : ElemWrite.run orig cl h w = writeElem (if side then cl else orig) h w.key w.index w.value := by
      unfold ElemWrite.run; rw [e]
    rw [this]
    exact look_writes orig cl side ws _ h1 fun v hv => hw v (List.mem_cons_of_mem _ hv)

/-- C10: after any writes through the two maps, in any order, each holds what a map of lists with the
    original's content holds after the writes through that one. -/
theorem C10_writes (grow : Nat → Nat) (h : Heap) (sub : SliceMap) (hmap : IsMap sub) (hsub : Sep h sub) :
    ∃ h' cl, clone grow h sub = (h', cl) ∧ ∀ ws : List ElemWrite,
      look (ws.foldl (ElemWrite.run sub cl) h') cl =
        (ws.filter fun w => w.toClone == true).foldl ElemWrite.plain (look h sub) ∧
      look (ws.foldl (ElemWrite.run sub cl) h') sub =
        (ws.filter fun w => w.toClone == false).foldl ElemWrite.plain (look h sub) := by
  obtain ⟨h', cl, e1, -, e3, e4, e5⟩ := C10_clone grow h sub hmap hsub
  obtain ⟨a1, a2, a3, a4, a5⟩ := clone_spec grow h sub hmap hsub
  rw [e1] at a1 a2 a3
  dsimp only at a1 a2 a3
  have hs : Sep h' sub := ⟨fun k s hk => valid_congr a2 (a3 _ (hsub.valid k s hk).1) (hsub.valid k s hk), hsub.sep⟩
  refine ⟨h', cl, e1, fun ws => ⟨?_, ?_⟩⟩
  · have := look_writes sub cl true (ws.filter fun w => w.toClone == true) h' a1 (by simp)
    rw [← (funext e3 : look h' cl = look h sub)]
    exact (funext fun q => (e5 ws q).1).trans this
  · have := look_writes sub cl false (ws.filter fun w => w.toClone == false) h' hs (by simp)
    rw [← (funext e4 : look h' sub = look h sub)]
    exact (funext fun q => (e5 ws q).2).trans this

-- test: a map of two URIs, one write through each map to the same place
def cloneTest : Heap × SliceMap := allocMap [] [("u".toList, ["a".toList, "b".toList]), ("v".toList, [])]

example : IsMap cloneTest.2 := by decide +kernel
example : Sep cloneTest.1 cloneTest.2 := (allocMap_spec _ [] (by decide +kernel)).1
example : (let r := clone (fun n => n) cloneTest.1 cloneTest.2
    let h := [ElemWrite.mk true "u".toList 0 "x".toList, ElemWrite.mk false "u".toList 1 "y".toList].foldl
      (ElemWrite.run cloneTest.2 r.2) r.1
    (look h r.2 "u".toList, look h cloneTest.2 "u".toList)) =
    (some ["x".toList, "b".toList], some ["a".toList, "y".toList]) := by decide +kernel

/-! ## C28 -/

theorem dropDots_pieces (body : Str) {parts : List Str} (h : Pieces '.' body parts) :
    dropDots body = parts.flatten := by
  obtain ⟨h1, h2, rfl⟩ := h
  induction parts with
  | nil => exact absurd rfl h1
  | cons p ps ih =>
    have hp : p.filter (fun c => decide (c ≠ '.')) = p := by
      rw [List.filter_eq_self]
      intro c hc
      rw [decide_eq_true_iff]
      rintro rfl
      exact h2 p (by simp) hc
    cases ps with
    | nil => simpa [dropDots, List.intercalate] using hp
    | cons q ps =>
      have := ih (by simp) fun x hx => h2 x (by simp only [List.mem_cons] at hx ⊢; exact Or.inr hx)
      rw [intercalate_cons₂]
      unfold dropDots at *
      rw [List.filter_append, hp, List.filter_cons_of_neg (by simp), this]
      rfl

theorem legacyText_iff (pat s : Str) : legacyText pat = some s ↔ TextForm pat s := by
  have hdot : ∀ body : Str, ∃ v rest, splitOn '.' body = v :: rest ∧ Pieces '.' body (v :: rest) := by
    intro body
    cases h : splitOn '.' body with
    | nil => exact absurd h (splitOn_ne_nil _ _)
    | cons v rest => exact ⟨v, rest, rfl, (splitOn_iff _ _ _).mp h⟩
  have hform : TextForm pat s ↔ ∃ a b c t body, splitOn ':' pat = [a, b, c, t, body] ∧
      (if t = "giai-96".toList then "giai:".toList ++ joinDots ((splitOn '.' body).drop 1)
      else if t = "grai-96".toList then "grai:".toList ++ joinDots ((splitOn '.' body).drop 1)
      else if t = "sgtin-96".toList then "sgtin:".toList ++ joinDots ((splitOn '.' body).drop 1)
      else if t = "sscc-96".toList then "sscc:".toList ++ joinDots ((splitOn '.' body).drop 1)
      else if t = "iso17363".toList then t ++ ":".toList ++ dropDots body
      else if t = "iso17365".toList then t ++ ":".toList ++ dropDots body
      else body) = s := by
    unfold TextForm
    constructor
    · rintro ⟨a, b, c, t, body, hp, h⟩
      refine ⟨a, b, c, t, body, (splitOn_iff _ _ _).mpr hp, ?_⟩
      rcases h with ⟨name, ⟨ht, hn⟩, v, rest, hr, rfl⟩ | ⟨ht, parts, hr, rfl⟩ | ⟨ht, rfl⟩
      · rw [← splitOn_iff] at hr
        rw [hr]
        simp only [List.mem_cons, List.not_mem_nil, or_false] at hn
        rcases hn with rfl | rfl | rfl | rfl <;> subst ht <;> rfl
      · have hd := dropDots_pieces body hr
        rw [hd]
        simp only [List.mem_cons, List.not_mem_nil, or_false] at ht
        rcases ht with rfl | rfl <;> simp <;> rfl
      · simp only [List.mem_cons, List.not_mem_nil, or_false, not_or] at ht
        obtain ⟨h1, h2, h3, h4, h5, h6⟩ := ht
        rw [if_neg h1, if_neg h2, if_neg h3, if_neg h4, if_neg h5, if_neg h6]
    · rintro ⟨a, b, c, t, body, hp, h⟩
      refine ⟨a, b, c, t, body, (splitOn_iff _ _ _).mp hp, ?_⟩
      obtain ⟨v, rest, hv, hvp⟩ := hdot body
      rw [hv] at h
      have hd := dropDots_pieces body hvp
      rw [hd] at h
      by_cases h1 : t = "giai-96".toList
      · rw [if_pos h1] at h
        exact Or.inl ⟨"giai".toList, ⟨h1, by simp⟩, v, rest, hvp, h.symm⟩
      rw [if_neg h1] at h
      by_cases h2 : t = "grai-96".toList
      · rw [if_pos h2] at h
        exact Or.inl ⟨"grai".toList, ⟨h2, by simp⟩, v, rest, hvp, h.symm⟩
      rw [if_neg h2] at h
      by_cases h3 : t = "sgtin-96".toList
      · rw [if_pos h3] at h
        exact Or.inl ⟨"sgtin".toList, ⟨h3, by simp⟩, v, rest, hvp, h.symm⟩
      rw [if_neg h3] at h
      by_cases h4 : t = "sscc-96".toList
      · rw [if_pos h4] at h
        exact Or.inl ⟨"sscc".toList, ⟨h4, by simp⟩, v, rest, hvp, h.symm⟩
      rw [if_neg h4] at h
      by_cases h5 : t = "iso17363".toList
      · rw [if_pos h5] at h
        refine Or.inr (Or.inl ⟨by simp [h5], v :: rest, hvp, ?_⟩)
        rw [← h]; simp
      rw [if_neg h5] at h
      by_cases h6 : t = "iso17365".toList
      · rw [if_pos h6] at h
        refine Or.inr (Or.inl ⟨by simp [h6], v :: rest, hvp, ?_⟩)
        rw [← h]; simp
      rw [if_neg h6] at h
      refine Or.inr (Or.inr ⟨?_, h.symm⟩)
      simp only [List.mem_cons, List.not_mem_nil, or_false, not_or]
      exact ⟨h1, h2, h3, h4, h5, h6⟩
  rw [hform]
  unfold legacyText
  split
  · rename_i a b c t body heq
    rw [Option.some_inj]
    constructor
    · intro h; exact ⟨a, b, c, t, body, heq, h⟩
    · rintro ⟨a', b', c', t', body', heq', h⟩
      rw [heq] at heq'
      cases heq'
      exact h
  · rename_i hne
    constructor
    · intro h; cases h
    · rintro ⟨a, b, c, t, body, heq, -⟩
      exact absurd heq (hne a b c t body)

theorem legacyMatches_iff (p pat : Str) : legacyMatches p pat = true ↔ TextMatches p pat := by
  unfold legacyMatches TextMatches
  simp only [stripped_iff]
  cases h : legacyText pat with
  | none =>
    simp only [Bool.false_eq_true, false_iff]
    rintro ⟨s, body, hs, -⟩
    rw [← legacyText_iff, h] at hs
    cases hs
  | some s =>
    dsimp only
    unfold hasPrefix
    rw [List.isPrefixOf_iff_prefix]
    constructor
    · intro hp; exact ⟨s, _, (legacyText_iff _ _).mp h, rfl, hp⟩
    · rintro ⟨s', body, hs, rfl, hp⟩
      rw [← legacyText_iff, h] at hs
      cases hs
      exact hp

theorem count_flatMap_map (filters : Subs) (hm : IsMap filters) (sel : Str → Bool) (u : Str) :
    (filters.flatMap fun e => (e.2.filter sel).map fun _ => e.1).count u =
      ((mapGet filters u).getD []).countP sel := by
  induction filters with
  | nil => simp [mapGet]
  | cons e l ih =>
    have he : e.1 ∉ l.map Prod.fst := (List.nodup_cons.mp hm).1
    have ih' := ih (List.nodup_cons.mp hm).2
    rw [List.flatMap_cons, List.count_append, ih']
    by_cases hu : e.1 = u
    · subst hu
      rw [(mapGet_none l e.1).mpr he]
      simp [mapGet, List.map_const', List.countP_eq_length_filter]
    · simp [mapGet, hu, List.map_const', List.count_replicate]

/-- C28: on a tag whose translation is `p`, every URI is reported once per pattern of it whose text
    starts the identity; there is an error iff there is no report. The order in which the map is
    visited only permutes the reports. -/
theorem C28_search (tr : Translator) (filters : Subs) (hm : IsMap filters) (pc id : List Byte) (p : Str)
    (htr : tr pc id = some (p, false)) :
    ∃ r, legacySearch tr filters pc id = some r ∧ r.pureIdentity = p ∧
      (r.err = true ↔ r.reportURIs = []) ∧
      (∃ sel : Str → Bool, (∀ pat, sel pat = true ↔ TextMatches p pat) ∧
        ∀ u, r.reportURIs.count u = ((mapGet filters u).getD []).countP sel) ∧
      ∀ order : Subs, order.Perm filters → ∃ r', legacySearch tr order pc id = some r' ∧
        r'.pureIdentity = p ∧ r'.err = r.err ∧ r'.reportURIs.Perm r.reportURIs := by
  unfold legacySearch
  rw [htr]
  dsimp only
  refine ⟨_, rfl, rfl, ?_, ⟨legacyMatches p, legacyMatches_iff p, ?_⟩, ?_⟩
  · simp only [decide_eq_true_iff, List.length_eq_zero_iff]
  · exact count_flatMap_map filters hm _
  · intro order hp
    have hperm := hp.flatMap_right fun e : Str × List Str =>
      (e.2.filter (legacyMatches p)).map fun _ => e.1
    exact ⟨_, rfl, rfl, by simp only [hperm.length_eq], hperm⟩

/-- C28: a tag that cannot be translated yields the error and no reports. -/
theorem C28_untranslatable (tr : Translator) (filters : Subs) (pc id : List Byte) (p : Str)
    (htr : tr pc id = some (p, true)) : legacySearch tr filters pc id = some ⟨p, [], true⟩ := by
  unfold legacySearch; rw [htr]

-- test: two patterns of one URI match, and one of another URI with a filter value; one does not
def legacyTest : Subs :=
  [("http://a".toList, ["urn:epc:pat:sgtin-96:3.0614141".toList, "urn:epc:pat:sgtin-96:3.0614141.812345".toList]),
   ("http://b".toList, ["urn:epc:pat:sgtin-96:1.0614141.8".toList, "urn:epc:pat:sscc-96:3.0614141".toList])]

example : legacySearch (fun _ _ => some ("urn:epc:id:sgtin:0614141.812345.6789".toList, false)) legacyTest [] [0x30#8]
    = some ⟨"urn:epc:id:sgtin:0614141.812345.6789".toList,
      ["http://a".toList, "http://a".toList, "http://b".toList], false⟩ := by decide +kernel
example : IsMap legacyTest := by decide +kernel
example : TextMatches "urn:epc:id:sgtin:0614141.812345.6789".toList "urn:epc:pat:sgtin-96:1.0614141.8".toList :=
  ⟨"sgtin:0614141.8".toList, "sgtin:0614141.812345.6789".toList,
    ⟨"urn".toList, "epc".toList, "pat".toList, "sgtin-96".toList, "1.0614141.8".toList,
      ⟨by simp, by decide +kernel, by decide +kernel⟩,
      Or.inl ⟨"sgtin".toList, by decide +kernel, "1".toList, ["0614141".toList, "8".toList],
        ⟨by simp, by decide +kernel, by decide +kernel⟩, by decide +kernel⟩⟩,
    Or.inl (by decide +kernel), by decide +kernel⟩
-- an ISO pattern is compared without its dots
example : TextForm "urn:epc:pat:iso17363:7B.CSQ.U".toList "iso17363:7BCSQU".toList :=
  (legacyText_iff _ _).mp (by decide +kernel)

/-! ## C29, C30: one call -/

/-- the patterns the engine holds for a URI -/
def patternsOf (st : Heap × SliceMap) (q : Str) : List Str := (look st.1 st.2 q).getD []

theorem patternsOf_viewMap (st : Heap × SliceMap) (q : Str) :
    (mapGet (st.1.viewMap st.2) q).getD [] = patternsOf st q := by
  unfold patternsOf look viewMap
  have : ∀ m : SliceMap, mapGet (m.map fun e => (e.1, st.1.view e.2)) q = (mapGet m q).map st.1.view := by
    intro m
    induction m with
    | nil => rfl
    | cons e m ih =>
      simp only [List.map_cons, mapGet]
      by_cases h : e.1 = q
      · simp [h]
      · simp only [h, if_false]; exact ih
  rw [this]

/-- C30: `AddSubscription` keeps the patterns of every URI in order and appends the given ones that
    were not yet present, in the order given. -/
theorem C30_add (grow : Nat → Nat) (st : Heap × SliceMap) (hs : Sep st.1 st.2) (sub : Subs)
    (hsub : IsMap sub) (q : Str) :
    patternsOf (legacyApply grow st (.add sub)) q = wishAdd (patternsOf st q) ((mapGet sub q).getD []) := by
  obtain ⟨h, m⟩ := st
  obtain ⟨-, e⟩ := legacyApply_spec grow h m hs (.add sub) hsub
  unfold patternsOf
  rw [e]
  dsimp only
  cases mapGet sub q <;> cases look h m q <;> simp [wishAdd]
  exact (List.filter_eq_self.mpr fun _ _ => rfl).symm

/-- C30: in particular every given pattern is present afterwards, and nothing else is added. -/
theorem C30_mem (grow : Nat → Nat) (st : Heap × SliceMap) (hs : Sep st.1 st.2) (sub : Subs)
    (hsub : IsMap sub) (q p : Str) :
    p ∈ patternsOf (legacyApply grow st (.add sub)) q ↔
      p ∈ patternsOf st q ∨ ∃ ps, (q, ps) ∈ sub ∧ p ∈ ps := by
  rw [C30_add grow st hs sub hsub, wishAdd, List.mem_append, List.mem_filter, decide_eq_true_iff]
  have : p ∈ (mapGet sub q).getD [] ↔ ∃ ps, (q, ps) ∈ sub ∧ p ∈ ps := by
    cases h : mapGet sub q with
    | none =>
      rw [mapGet_none] at h
      simp only [Option.getD_none, List.not_mem_nil, false_iff]
      rintro ⟨ps, hps, -⟩
      exact h (List.mem_map.mpr ⟨_, hps, rfl⟩)
    | some ps =>
      rw [mapGet_iff hsub] at h
      simp only [Option.getD_some]
      constructor
      · intro hp; exact ⟨ps, h, hp⟩
      · rintro ⟨ps', h', hp⟩
        rw [← mapGet_iff hsub] at h h'
        rw [h] at h'
        cases h'
        exact hp
  rw [this]
  by_cases hp : p ∈ patternsOf st q
  · simp [hp]
  · simp [hp]

theorem delete_getD (grow : Nat → Nat) (st : Heap × SliceMap) (hs : Sep st.1 st.2) (sub : Subs)
    (hsub : IsMap sub) (q : Str) :
    patternsOf (legacyApply grow st (.delete sub)) q =
      (staleDelete (patternsOf st q) ((mapGet sub q).getD [])).getD [] := by
  obtain ⟨h, m⟩ := st
  obtain ⟨-, e⟩ := legacyApply_spec grow h m hs (.delete sub) hsub
  unfold patternsOf
  rw [e]
  dsimp only
  cases mapGet sub q with
  | none => simp [staleDelete_none]
  | some ds =>
    cases look h m q with
    | none => simp [staleDelete_none]
    | some old => rfl

/-- C29: a pattern given alone disappears (one occurrence of it), everything else stays. -/
theorem C29_delete_single (grow : Nat → Nat) (st : Heap × SliceMap) (hs : Sep st.1 st.2) (sub : Subs)
    (hsub : IsMap sub) (q d : Str) (hd : mapGet sub q = some [d]) :
    patternsOf (legacyApply grow st (.delete sub)) q = (patternsOf st q).erase d := by
  rw [delete_getD grow st hs sub hsub, hd]
  by_cases h : d ∈ patternsOf st q
  · exact staleDelete_one (by simp) h (Or.inl rfl) (by simp)
  · rw [List.erase_of_not_mem h]
    apply staleDelete_none
    simpa using h

/-- C29: URIs whose given patterns are all absent keep theirs. -/
theorem C29_delete_absent (grow : Nat → Nat) (st : Heap × SliceMap) (hs : Sep st.1 st.2) (sub : Subs)
    (hsub : IsMap sub) (q : Str) (h : ∀ d ∈ (mapGet sub q).getD [], d ∉ patternsOf st q) :
    patternsOf (legacyApply grow st (.delete sub)) q = patternsOf st q := by
  rw [delete_getD grow st hs sub hsub]
  exact staleDelete_none h

/-- C29, the code: however many of the patterns of a URI one call is told to delete, the number of
    its patterns goes down by one. -/
theorem C29_delete_length (grow : Nat → Nat) (st : Heap × SliceMap) (hs : Sep st.1 st.2) (sub : Subs)
    (hsub : IsMap sub) (q : Str) (h : ∃ d ∈ (mapGet sub q).getD [], d ∈ patternsOf st q) :
    (patternsOf (legacyApply grow st (.delete sub)) q).length = (patternsOf st q).length - 1 := by
  rw [delete_getD grow st hs sub hsub]
  exact staleDelete_length h

theorem wishDelete_two {old ds : List Str} {x y : Str} (hn : old.Nodup) (hx : x ∈ ds) (hy : y ∈ ds)
    (hxo : x ∈ old) (hyo : y ∈ old) (hxy : x ≠ y) : (wishDelete old ds).length ≤ old.length - 2 := by
  have h1 : wishDelete old ds = wishDelete ((old.erase x).erase y) ds := by
    rw [(hn.erase x).erase_eq_filter, hn.erase_eq_filter]
    unfold wishDelete
    rw [List.filter_filter, List.filter_filter]
    apply List.filter_congr
    intro p _
    by_cases hp : p ∈ ds
    · simp [hp]
    · have h1 : p ≠ x := fun h => hp (h ▸ hx)
      have h2 : p ≠ y := fun h => hp (h ▸ hy)
      simp [hp, h1, h2]
  rw [h1]
  have h2 := List.length_erase_of_mem hxo
  have h3 := List.length_erase_of_mem ((List.mem_erase_of_ne hxy.symm).mpr hyo)
  have h4 : (wishDelete ((old.erase x).erase y) ds).length ≤ ((old.erase x).erase y).length :=
    List.length_filter_le _ _
  omega

theorem staleDelete_wish {old ds : List Str} (hn : old.Nodup) :
    (staleDelete old ds).getD [] = wishDelete old ds ↔ AtMostOne old ds := by
  constructor
  · intro h x hx y hy hxo hyo
    apply Classical.byContradiction
    intro hxy
    have h1 := staleDelete_length (a := old) ⟨x, hx, hxo⟩
    rw [h] at h1
    have h2 := wishDelete_two hn hx hy hxo hyo hxy
    have h3 : 2 ≤ old.length := by
      have := List.length_erase_of_mem hxo
      have := List.length_pos_of_mem ((List.mem_erase_of_ne (fun h => hxy h.symm)).mpr hyo : y ∈ old.erase x)
      omega
    omega
  · intro h
    by_cases hex : ∃ d ∈ ds, d ∈ old
    · obtain ⟨d, hd, hdo⟩ := hex
      rw [staleDelete_one hd hdo (Or.inr hn) fun x hx hxo => h x hx d hd hxo hdo, hn.erase_eq_filter]
      unfold wishDelete
      apply List.filter_congr
      intro p hp
      by_cases hpd : p = d
      · subst hpd; simp [hd]
      · have : p ∉ ds := fun hpds => hpd (h p hpds d hd hp hdo)
        simp [hpd, this]
    · have hno : ∀ d ∈ ds, d ∉ old := fun d hd hdo => hex ⟨d, hd, hdo⟩
      rw [staleDelete_none hno]
      unfold wishDelete
      symm
      rw [List.filter_eq_self]
      intro p hp
      rw [decide_eq_true_iff]
      exact fun hpd => hno p hpd hp

/-- C29: the deletion leaves exactly the other patterns of a URI if and only if at most one of the
    given patterns is present. -/
theorem C29_correct_iff (grow : Nat → Nat) (st : Heap × SliceMap) (hs : Sep st.1 st.2) (sub : Subs)
    (hsub : IsMap sub) (q : Str) (hn : (patternsOf st q).Nodup) :
    patternsOf (legacyApply grow st (.delete sub)) q =
        wishDelete (patternsOf st q) ((mapGet sub q).getD []) ↔
      AtMostOne (patternsOf st q) ((mapGet sub q).getD []) := by
  rw [delete_getD grow st hs sub hsub]
  exact staleDelete_wish hn

/-- an engine with the given patterns -/
def freshLegacy (sub : Subs) : Heap × SliceMap :=
  let r := allocMap [] sub
  newLegacy (fun n => n) r.1 r.2

/-- C29, refuted: deleting two patterns in one call can remove neither, or remove one that was to
    stay and store another twice. -/
theorem C29_several_corrupt :
    ¬ ∀ (grow : Nat → Nat) (st : Heap × SliceMap) (sub : Subs) (q : Str), Sep st.1 st.2 → IsMap sub →
      patternsOf (legacyApply grow st (.delete sub)) q =
        wishDelete (patternsOf st q) ((mapGet sub q).getD []) := by
  intro h
  have hm : IsMap [("u".toList, ["a".toList, "b".toList, "c".toList])] := by decide +kernel
  obtain ⟨a1, -, -, -, -, a6⟩ := allocMap_spec [("u".toList, ["a".toList, "b".toList, "c".toList])] [] hm
  have hsep := (clone_spec (fun n => n) _ _ (by unfold IsMap; rw [a6]; exact hm) a1).1
  have := h (fun n => n) (freshLegacy [("u".toList, ["a".toList, "b".toList, "c".toList])])
    [("u".toList, ["a".toList, "b".toList])] "u".toList hsep (by decide +kernel)
  revert this
  decide +kernel

-- test: told to delete a and b of a, b, c the engine keeps c twice; of a, b it keeps b
example : patternsOf (legacyApply (fun n => n) (freshLegacy [("u".toList, ["a".toList, "b".toList, "c".toList])])
    (.delete [("u".toList, ["a".toList, "b".toList])])) "u".toList = ["c".toList, "c".toList] := by decide +kernel
example : patternsOf (legacyApply (fun n => n) (freshLegacy [("u".toList, ["a".toList, "b".toList])])
    (.delete [("u".toList, ["a".toList, "b".toList])])) "u".toList = ["b".toList] := by decide +kernel
-- test: one of three
example : patternsOf (legacyApply (fun n => n) (freshLegacy [("u".toList, ["a".toList, "b".toList, "c".toList])])
    (.delete [("u".toList, ["b".toList, "x".toList])])) "u".toList = ["a".toList, "c".toList] := by decide +kernel
-- test: add one present and two new ones, and a new URI
example : (fun st : Heap × SliceMap => (patternsOf st "u".toList, patternsOf st "v".toList))
      (legacyApply (fun n => n) (freshLegacy [("u".toList, ["a".toList, "b".toList])])
        (.add [("v".toList, ["z".toList]), ("u".toList, ["x".toList, "a".toList, "y".toList])])) =
    (["a".toList, "b".toList, "x".toList, "y".toList], ["z".toList]) := by decide +kernel

/-- C30, refuted: a pattern given twice in one call is stored twice. -/
theorem C30_duplicates_in_one_call :
    ¬ ∀ (grow : Nat → Nat) (st : Heap × SliceMap) (sub : Subs) (q : Str), Sep st.1 st.2 → IsMap sub →
      (patternsOf st q).Nodup → (patternsOf (legacyApply grow st (.add sub)) q).Nodup := by
  intro h
  have hm : IsMap [("u".toList, ["a".toList])] := by decide +kernel
  obtain ⟨a1, -, -, -, -, a6⟩ := allocMap_spec [("u".toList, ["a".toList])] [] hm
  have hsep := (clone_spec (fun n => n) _ _ (by unfold IsMap; rw [a6]; exact hm) a1).1
  have := h (fun n => n) (freshLegacy [("u".toList, ["a".toList])])
    [("u".toList, ["x".toList, "x".toList])] "u".toList hsep (by decide +kernel) (by decide +kernel)
  revert this
  decide +kernel

/-- C30, refuted: the patterns of a URI new to the engine are not copied, so a later deletion in the
    engine changes the caller's map. -/
theorem C30_shares_with_caller :
    ¬ ∀ (grow : Nat → Nat) (st : Heap × SliceMap) (sub : Subs) (ds : Subs) (q : Str), Sep st.1 st.2 →
      IsMap sub → IsMap ds →
      let given := allocMap st.1 sub
      let st' := legacyAdd grow given.2 (given.1, st.2)
      let st'' := legacyApply grow st' (.delete ds)
      look st''.1 given.2 q = look given.1 given.2 q := by
  intro h
  have := h (fun n => n) ([], []) [("u".toList, ["a".toList, "b".toList])] [("u".toList, ["a".toList])]
    "u".toList ⟨by simp [mapGet], by simp [mapGet]⟩ (by decide +kernel) (by decide +kernel)
  revert this
  decide +kernel

/-! ## C29, C30: histories -/

theorem history_loop (grow : Nat → Nat) : ∀ (ops : List SubsOp) (st : Heap × SliceMap) (c : Str → List Str),
    Sep st.1 st.2 → IsMap st.2 → (∀ op ∈ ops, IsMap op.sub) → (∀ q, patternsOf st q = c q) →
    DeletesOneEach c ops →
    IsMap (ops.foldl (legacyApply grow) st).2 ∧
      ∀ q, patternsOf (ops.foldl (legacyApply grow) st) q = WishAfter c ops q
  | [], st, c, _, hm, _, hc, _ => ⟨hm, hc⟩
  | .add s :: ops, st, c, hs, hm, hin, hc, hd => by
    rw [List.foldl_cons]
    have hsub : IsMap s := hin (.add s) (by simp)
    apply history_loop grow ops _ _ (legacyApply_spec grow st.1 st.2 hs (.add s) hsub).1
      (isMap_legacyApply grow st _ hm) (fun op h => hin op (by simp [h])) _ hd
    intro q
    rw [C30_add grow st hs s hsub, hc]
  | .delete s :: ops, st, c, hs, hm, hin, hc, hd => by
    rw [List.foldl_cons]
    have hsub : IsMap s := hin (.delete s) (by simp)
    apply history_loop grow ops _ _ (legacyApply_spec grow st.1 st.2 hs (.delete s) hsub).1
      (isMap_legacyApply grow st _ hm) (fun op h => hin op (by simp [h])) _ hd.2
    intro q
    obtain ⟨h1, h2⟩ := hd.1 q
    rw [← hc q] at h1 h2 ⊢
    exact (C29_correct_iff grow st hs s hsub q h1).mpr h2

/-- C29, C30: an engine made from `sub` and then changed by any calls, each with a map of the
    caller's own, in which every deletion takes at most one pattern per URI: it holds the patterns the
    history describes, and its search reports every URI once per pattern of it that matches. -/
theorem C29_C30_history (grow : Nat → Nat) (sub : Subs) (hsub : IsMap sub) (ops : List SubsOp)
    (hops : ∀ op ∈ ops, IsMap op.sub) (hd : DeletesOneEach (fun q => (mapGet sub q).getD []) ops)
    (tr : Translator) (pc id : List Byte) (p : Str) (htr : tr pc id = some (p, false)) :
    let engine := ops.foldl (legacyApply grow) (newLegacy grow (allocMap [] sub).1 (allocMap [] sub).2)
    (∀ q, patternsOf engine q = WishAfter (fun q => (mapGet sub q).getD []) ops q) ∧
      ∃ r, legacySearch tr (engine.1.viewMap engine.2) pc id = some r ∧ r.pureIdentity = p ∧
        (r.err = true ↔ r.reportURIs = []) ∧
        ∃ sel : Str → Bool, (∀ pat, sel pat = true ↔ TextMatches p pat) ∧
          ∀ u, r.reportURIs.count u = (WishAfter (fun q => (mapGet sub q).getD []) ops u).countP sel := by
  obtain ⟨a1, -, -, -, a5, a6⟩ := allocMap_spec sub [] hsub
  have hmap : IsMap (allocMap [] sub).2 := by unfold IsMap; rw [a6]; exact hsub
  obtain ⟨b1, -, -, -, b5⟩ := clone_spec grow _ _ hmap a1
  obtain ⟨h1, h2⟩ := history_loop grow ops (newLegacy grow (allocMap [] sub).1 (allocMap [] sub).2)
    (fun q => (mapGet sub q).getD []) b1 (isMap_clone grow _ _) hops (by
      intro q
      unfold patternsOf newLegacy
      rw [b5, a5]) hd
  dsimp only
  refine ⟨h2, ?_⟩
  generalize ops.foldl (legacyApply grow) (newLegacy grow (allocMap [] sub).1 (allocMap [] sub).2) = e at *
  have hvm : IsMap (e.1.viewMap e.2) := by
    unfold IsMap viewMap at *
    rw [List.map_map]
    exact h1
  obtain ⟨r, r1, r2, r3, ⟨sel, r4, r5⟩, -⟩ := C28_search tr (e.1.viewMap e.2) hvm pc id p htr
  refine ⟨r, r1, r2, r3, sel, r4, fun u => ?_⟩
  rw [r5, patternsOf_viewMap, h2]

-- test: the hypotheses are met by a history that adds to one URI, adds another and deletes from both
example : DeletesOneEach (fun q => (mapGet [("u".toList, ["a".toList, "b".toList])] q).getD [])
    [SubsOp.add [("u".toList, ["c".toList]), ("v".toList, ["z".toList])],
     SubsOp.delete [("u".toList, ["b".toList, "y".toList]), ("v".toList, ["z".toList])]] := by
  refine ⟨fun q => ?_, trivial⟩
  by_cases h1 : "u".toList = q
  · subst h1
    have h1 : mapGet [("u".toList, ["a".toList, "b".toList])] "u".toList = some ["a".toList, "b".toList] := by
      decide +kernel
    constructor
    · decide +kernel
    · unfold AtMostOne; decide +kernel
  · by_cases h2 : "v".toList = q
    · subst h2
      constructor
      · decide +kernel
      · unfold AtMostOne; decide +kernel
    · have : ∀ (a b : Str) (x y : List Str), a = "u".toList → b = "v".toList →
          mapGet [(a, x), (b, y)] q = none := by
        rintro a b x y rfl rfl
        simp only [mapGet, h1, h2, if_false]
      have h0 : mapGet [("u".toList, ["a".toList, "b".toList])] q = none := by
        simp only [mapGet, h1, if_false]
      dsimp only
      rw [this _ _ _ _ rfl rfl, h0]
      simp [wishAdd, AtMostOne]

/-! ## C32 -/

theorem finishSearch_errors {tr : Translator} {pc id : List Byte} {uris : List Str} {r : SearchResult}
    (h : finishSearch tr pc id uris = some r) :
    (r.err = false → r.reportURIs ≠ [] ∧ tr pc id = some (r.pureIdentity, false)) ∧
    (r.err = true → r.reportURIs = [] ∨ tr pc id = some (r.pureIdentity, true)) := by
  unfold finishSearch at h
  split at h
  · rename_i h0
    cases h
    exact ⟨by simp, fun _ => Or.inl (List.length_eq_zero_iff.mp h0)⟩
  · rename_i h0
    split at h
    · cases h
    · rename_i p e htr
      cases h
      refine ⟨fun he => ⟨fun hn => h0 (by rw [show uris = [] from hn]; rfl), ?_⟩, fun he => Or.inr ?_⟩ <;>
        (dsimp only at he; subst he; exact htr)

/-- C32: in every state, each of the four engines: a search without error has reports, and its pure
    identity is the successful translation of the tag; a search with an error has no reports, or the tag
    matched but its translation failed. -/
theorem C32_errors (tr : Translator) (pc id : List Byte) (r : SearchResult)
    (h : (∃ l : ListEngine, l.search tr pc id = some r) ∨
      (∃ t : PNode, t.searchEngine tr pc id = some r) ∨
      (∃ t t' : SNode, t.searchEngine tr pc id = some (r, t')) ∨
      (∃ filters : Subs, legacySearch tr filters pc id = some r)) :
    (r.err = false → r.reportURIs ≠ [] ∧ tr pc id = some (r.pureIdentity, false)) ∧
    (r.err = true → r.reportURIs = [] ∨ tr pc id = some (r.pureIdentity, true)) := by
  rcases h with ⟨l, h⟩ | ⟨t, h⟩ | ⟨t, t', h⟩ | ⟨fs, h⟩
  · unfold ListEngine.search at h
    split at h
    · cases h
    · exact finishSearch_errors h
  · unfold PNode.searchEngine at h
    split at h
    · cases h
    · exact finishSearch_errors h
  · unfold SNode.searchEngine at h
    split at h
    · cases h
    · rw [Option.map_eq_some_iff] at h
      obtain ⟨r', h1, h2⟩ := h
      cases h2
      exact finishSearch_errors h1
  · unfold legacySearch at h
    split at h
    · cases h
    · rename_i p htr
      cases h
      exact ⟨by simp, fun _ => Or.inl rfl⟩
    · rename_i p htr
      cases h
      dsimp only
      simp only [decide_eq_false_iff_not, decide_eq_true_iff, List.length_eq_zero_iff]
      exact ⟨fun h => ⟨h, htr⟩, Or.inl⟩

/-- C32, refuted for the byte engines: a tag that matches but cannot be translated yields an error
    together with reports. -/
theorem C32_error_with_reports :
    ¬ ∀ (mk : Encoder) (tr : Translator) (sub : Subs) (pc id : List Byte) (r : SearchResult),
      (newList mk sub).search tr pc id = some r → r.err = true → r.reportURIs = [] := by
  intro h
  have := h toyEncoder (fun _ _ => some ([], true)) toySub3 [] [0x30#8]
    ⟨[], ["http://a".toList, "http://b".toList], true⟩ (by decide +kernel) rfl
  revert this
  decide +kernel

-- test: the three kinds of outcome on one engine
example : (newList toyEncoder toySub3).search (fun _ _ => some ("x".toList, false)) [] [0x70#8]
    = some ⟨"x".toList, ["http://a".toList], false⟩ := by decide +kernel
example : (newList toyEncoder [("http://b".toList, ["urn:epc:pat:s:1".toList])]).search
    (fun _ _ => some ("x".toList, false)) [] [0x70#8] = some ⟨[], [], true⟩ := by decide +kernel

end Gosstrak
