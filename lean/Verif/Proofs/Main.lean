import Verif.Spec.Main
import Verif.Proofs.Subs

namespace Gosstrak

theorem bigEndian_wire16 (x : BitVec 16) : bigEndian (wire16 x) = x.toNat := by
  simp only [bigEndian, wire16, List.foldl, BitVec.extractLsb'_toNat, Nat.shiftRight_eq_div_pow]
  have := x.isLt
  omega

theorem bigEndian_wire32 (x : BitVec 32) : bigEndian (wire32 x) = x.toNat := by
  simp only [bigEndian, wire32, List.foldl, BitVec.extractLsb'_toNat, Nat.shiftRight_eq_div_pow]
  have := x.isLt
  omega

theorem wire16_of (a b : Byte) : ∃ x, wire16 x = [a, b] := by
  refine ⟨BitVec.ofNat 16 (bigEndian [a, b]), ?_⟩
  simp only [wire16, List.cons.injEq, and_true, bigEndian, List.foldl]
  have := a.isLt; have := b.isLt
  refine ⟨?_, ?_⟩ <;>
    (apply BitVec.eq_of_toNat_eq
     simp only [BitVec.extractLsb'_toNat, BitVec.toNat_ofNat, Nat.shiftRight_eq_div_pow]
     omega)

theorem wire32_of (a b d e : Byte) : ∃ x, wire32 x = [a, b, d, e] := by
  refine ⟨BitVec.ofNat 32 (bigEndian [a, b, d, e]), ?_⟩
  simp only [wire32, List.cons.injEq, and_true, bigEndian, List.foldl]
  have := a.isLt; have := b.isLt; have := d.isLt; have := e.isLt
  refine ⟨?_, ?_, ?_, ?_⟩ <;>
    (apply BitVec.eq_of_toNat_eq
     simp only [BitVec.extractLsb'_toNat, BitVec.toNat_ofNat, Nat.shiftRight_eq_div_pow]
     omega)

theorem messageSize_eq (l : List Byte) : messageSize l = (2 ^ 32 - 10 + bigEndian l % 2 ^ 32) % 2 ^ 32 := by
  simp [messageSize, BitVec.toNat_sub]

theorem readMessage_wire (m : LlrpMessage) (hm : m.Fits) (rest : List Byte) :
    readMessage (m.wire ++ rest) = some (m.header.toNat, m.id.toNat, m.body, rest) := by
  unfold LlrpMessage.Fits at hm
  have e1 : bigEndian [m.header.extractLsb' 8 8, m.header.extractLsb' 0 8] = _ := bigEndian_wire16 m.header
  have e2 : bigEndian [m.id.extractLsb' 24 8, m.id.extractLsb' 16 8, m.id.extractLsb' 8 8,
    m.id.extractLsb' 0 8] = _ := bigEndian_wire32 m.id
  have e3 : messageSize (wire32 (BitVec.ofNat 32 (m.body.length + 10))) = m.body.length := by
    rw [messageSize_eq, bigEndian_wire32, BitVec.toNat_ofNat]
    omega
  have hn : ∀ k : Nat, ¬ k + 10 < 10 := by omega
  have hl : (wire32 (BitVec.ofNat 32 (m.body.length + 10))) = wire32 (BitVec.ofNat 32 (m.body.length + 10)) := rfl
  generalize hw : wire32 (BitVec.ofNat 32 (m.body.length + 10)) = w at e3
  obtain ⟨a, b, d, e, rfl⟩ : ∃ a b d e, w = [a, b, d, e] := ⟨_, _, _, _, hw.symm⟩
  have : m.wire ++ rest = m.header.extractLsb' 8 8 :: m.header.extractLsb' 0 8 :: a :: b :: d :: e ::
      m.id.extractLsb' 24 8 :: m.id.extractLsb' 16 8 :: m.id.extractLsb' 8 8 :: m.id.extractLsb' 0 8 ::
      (m.body ++ rest) := by
    rw [LlrpMessage.wire, hw]
    simp [wire16, wire32]
  rw [this]
  simp [readMessage, e1, e2, e3, hn]

theorem llrpSwitch_answer {hs : LlrpHeaders} (hd : hs.Distinct) {m : LlrpMessage} {a : LlrpAction}
    (h : Answer hs m a) : llrpSwitch hs m.header.toNat m.body = some a := by
  simp only [LlrpHeaders.Distinct, List.nodup_cons, List.mem_cons, List.not_mem_nil, or_false, not_or] at hd
  obtain ⟨⟨h1, h2, h3⟩, ⟨h4, h5⟩, h6, -⟩ := hd
  cases h <;> rename_i h <;> simp only [llrpSwitch, h] <;> simp [*, Ne.symm, eq_comm]
  all_goals (first | rfl | skip)

theorem llrpSwitch_sound {hs : LlrpHeaders} {m : LlrpMessage} {a : LlrpAction}
    (h : llrpSwitch hs m.header.toNat m.body = some a) : Answer hs m a := by
  unfold llrpSwitch at h
  split at h
  · cases h; exact .notification m ‹_›
  split at h
  · cases h; exact .keepalive m ‹_›
  split at h
  · cases h; exact .response m ‹_›
  split at h
  · cases h; exact .report m ‹_›
  · cases h

theorem llrpSwitch_none {hs : LlrpHeaders} {m : LlrpMessage} {a : LlrpAction}
    (h : llrpSwitch hs m.header.toNat m.body = none) : ¬ Answer hs m a := by
  unfold llrpSwitch at h
  split at h
  · cases h
  split at h
  · cases h
  split at h
  · cases h
  split at h
  · cases h
  · intro ha
    cases ha <;> contradiction

theorem llrpLoop_none {hs : LlrpHeaders} {s : List Byte} (h : readMessage s = none) :
    llrpLoop hs s = ([], .waiting s) := by
  rw [llrpLoop]
  split
  · rfl
  · rename_i e; rw [h] at e; cases e

theorem llrpLoop_some {hs : LlrpHeaders} {s : List Byte} {h mid : Nat} {body rest : List Byte}
    (hr : readMessage s = some (h, mid, body, rest)) : llrpLoop hs s =
      match llrpSwitch hs h body with
      | none => ([], .unknownHeader h)
      | some a => (a :: (llrpLoop hs rest).1, (llrpLoop hs rest).2) := by
  rw [llrpLoop]
  split
  · rename_i e; rw [hr] at e; cases e
  · rename_i e; rw [hr] at e; cases e; rfl

/-- bytes behind a message do not matter for it -/
theorem readMessage_append {s : List Byte} {h mid : Nat} {body rest : List Byte}
    (hr : readMessage s = some (h, mid, body, rest)) (t : List Byte) :
    readMessage (s ++ t) = some (h, mid, body, rest ++ t) := by
  unfold readMessage at hr ⊢
  split at hr
  · cases hr
  rename_i h10
  dsimp only at hr
  split at hr
  · cases hr
  rename_i hs
  cases hr
  simp only [List.length_drop] at hs
  have e1 : (s ++ t).take 2 = s.take 2 := List.take_append_of_le_length (by omega)
  have e2 : ((s ++ t).drop 2).take 4 = (s.drop 2).take 4 := by
    rw [List.drop_append_of_le_length (by omega), List.take_append_of_le_length (by simp; omega)]
  have e3 : ((s ++ t).drop 6).take 4 = (s.drop 6).take 4 := by
    rw [List.drop_append_of_le_length (by omega), List.take_append_of_le_length (by simp; omega)]
  have e4 : (s ++ t).drop 10 = s.drop 10 ++ t := List.drop_append_of_le_length (by omega)
  simp only [e1, e2, e3, e4]
  rw [if_neg (by simp; omega), if_neg (by simp; omega), List.take_append_of_le_length (by simp; omega),
    List.drop_append_of_le_length (by simp; omega)]

/-- what `readMessage` takes from a stream of ordinary length is a message -/
theorem readMessage_inv {s : List Byte} {h mid : Nat} {body rest : List Byte}
    (hr : readMessage s = some (h, mid, body, rest)) (hs : s.length < 2 ^ 32 - 10) :
    ∃ m : LlrpMessage, m.Fits ∧ m.header.toNat = h ∧ m.body = body ∧ s = m.wire ++ rest := by
  unfold readMessage at hr
  split at hr
  · cases hr
  rename_i h10
  dsimp only at hr
  split at hr
  · cases hr
  rename_i hsz
  match s, h10 with
  | a :: b :: l1 :: l2 :: l3 :: l4 :: i1 :: i2 :: i3 :: i4 :: s', _ =>
    simp only [List.drop_succ_cons, List.drop_zero, List.take_succ_cons, List.take_zero] at hr hsz
    obtain ⟨x, hx⟩ := wire16_of a b
    obtain ⟨y, hy⟩ := wire32_of l1 l2 l3 l4
    obtain ⟨z, hz⟩ := wire32_of i1 i2 i3 i4
    rw [← hx, ← hy, ← hz, bigEndian_wire16] at hr
    rw [← hy] at hsz
    have hsize := messageSize_eq (wire32 y)
    rw [bigEndian_wire32] at hsize
    have hy' := y.isLt
    simp only [List.length_cons] at hs
    cases hr
    have hlen : (s'.take (messageSize (wire32 y))).length = messageSize (wire32 y) := by
      rw [List.length_take]; omega
    have hy2 : BitVec.ofNat 32 (messageSize (wire32 y) + 10) = y := by
      apply BitVec.eq_of_toNat_eq
      rw [BitVec.toNat_ofNat]
      omega
    refine ⟨⟨x, z, s'.take (messageSize (wire32 y))⟩, ?_, rfl, rfl, ?_⟩
    · show _ + 10 < _
      rw [hlen]; omega
    · simp only [LlrpMessage.wire]
      rw [hlen, hy2, hx, hy, hz]
      simp
  | [], h => simp at h
  | [_], h => simp at h
  | [_, _], h => simp at h
  | [_, _, _], h => simp at h
  | [_, _, _, _], h => simp at h
  | [_, _, _, _, _], h => simp at h
  | [_, _, _, _, _, _], h => simp at h
  | [_, _, _, _, _, _, _], h => simp at h
  | [_, _, _, _, _, _, _, _], h => simp at h
  | [_, _, _, _, _, _, _, _, _], h => simp at h

/-! reports -/

theorem mapGet_addReports (p d : Str) : ∀ (uris : List Str) (m : List (Str × List Str)),
    mapGet (addReports m p uris) d =
      if d ∈ uris then some ((mapGet m d).getD [] ++ List.replicate (uris.count d) p) else mapGet m d
  | [], m => by simp [addReports]
  | u :: us, m => by
    have step : addReports m p (u :: us) = addReports
        (mapSet (if (mapGet m u).isNone then mapSet m u [] else m) u
          ((mapGet (if (mapGet m u).isNone then mapSet m u [] else m) u).getD [] ++ [p])) p us := rfl
    have e : (mapGet (if (mapGet m u).isNone then mapSet m u [] else m) u).getD [] = (mapGet m u).getD [] := by
      cases h : mapGet m u <;> simp [mapGet_mapSet, h]
    rw [step, mapGet_addReports p d us, e, mapGet_mapSet]
    by_cases hu : d = u
    · subst hu
      by_cases hd : d ∈ us
      · simp [hd, List.replicate_succ]
      · simp [hd, List.count_eq_zero.mpr hd]
    · have e2 : mapGet (if (mapGet m u).isNone then mapSet m u [] else m) d = mapGet m d := by
        split
        · rw [mapGet_mapSet, if_neg (Ne.symm hu)]
        · rfl
      rw [if_neg (Ne.symm hu), e2]
      have : List.count d (u :: us) = List.count d us := List.count_cons_of_ne (Ne.symm hu)
      simp [hu, this]

theorem isMap_addReports (p : Str) : ∀ (uris : List Str) (m : List (Str × List Str)), IsMap m →
    IsMap (addReports m p uris)
  | [], m, h => h
  | u :: us, m, h => by
    refine isMap_addReports p us _ (isMap_mapSet ?_ _ _)
    split
    · exact isMap_mapSet h _ _
    · exact h

theorem owed_cons (r : SearchResult) (rs : List SearchResult) (d : Str) : owed (r :: rs) d =
    (if r.err then [] else List.replicate (r.reportURIs.count d) r.pureIdentity) ++ owed rs d := rfl

theorem collect_foldl (d : Str) : ∀ (rs : List SearchResult) (m : List (Str × List Str)),
    mapGet (rs.foldl (fun m r => if r.err then m else addReports m r.pureIdentity r.reportURIs) m) d =
      if owed rs d = [] then mapGet m d else some ((mapGet m d).getD [] ++ owed rs d)
  | [], m => by simp [owed]
  | r :: rs, m => by
    rw [List.foldl_cons, collect_foldl d rs, owed_cons]
    by_cases he : r.err
    · simp [he]
    · simp only [he, Bool.false_eq_true, if_false]
      rw [mapGet_addReports]
      by_cases hd : d ∈ r.reportURIs
      · have : r.reportURIs.count d ≠ 0 := by
          have := List.count_pos_iff.mpr hd; omega
        by_cases h2 : owed rs d = [] <;> simp [hd, h2, this]
      · have : r.reportURIs.count d = 0 := List.count_eq_zero.mpr hd
        simp [hd, this]

theorem isMap_collect : ∀ (rs : List SearchResult) (m : List (Str × List Str)), IsMap m →
    IsMap (rs.foldl (fun m r => if r.err then m else addReports m r.pureIdentity r.reportURIs) m)
  | [], _, h => h
  | r :: rs, m, h => by
    refine isMap_collect rs _ ?_
    dsimp only
    split
    · exact h
    · exact isMap_addReports _ _ _ h

end Gosstrak
