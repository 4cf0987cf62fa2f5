import Verif.Proofs.Main
import Verif.Props.ListEngine

/-! # C60, C61: the LLRP loop and the collection of reports in `gosstrak-fc` -/
namespace Gosstrak

/-! ## C60 -/

/-- C60: any number of messages, however long, are taken whole and answered one by one; then the loop
    stands at the first byte behind them. -/
theorem C60_aligned {hs : LlrpHeaders} (hd : hs.Distinct) {ms : List LlrpMessage} {as : List LlrpAction}
    (hm : ∀ m ∈ ms, m.Fits) (ha : Answers hs ms as) (rest : List Byte) :
    llrpLoop hs (ms.flatMap LlrpMessage.wire ++ rest) =
      (as ++ (llrpLoop hs rest).1, (llrpLoop hs rest).2) := by
  induction ha with
  | nil => simp
  | @cons m a ms as h t ih =>
    rw [List.flatMap_cons, List.append_assoc,
      llrpLoop_some (readMessage_wire m (hm m List.mem_cons_self) _), llrpSwitch_answer hd h]
    dsimp only
    rw [ih fun x hx => hm x (List.mem_cons_of_mem _ hx)]
    rfl

/-- C60: conversely, in a stream of ordinary length everything done is the answer to a message, and
    the messages are the bytes consumed. -/
theorem C60_consumed (hs : LlrpHeaders) : ∀ (s : List Byte), s.length < 2 ^ 32 - 10 →
    ∃ (ms : List LlrpMessage) (tail : List Byte), (∀ m ∈ ms, m.Fits) ∧
      s = ms.flatMap LlrpMessage.wire ++ tail ∧ Answers hs ms (llrpLoop hs s).1 ∧
      ((llrpLoop hs s).2 = .waiting tail ∨ ∃ m rest, tail = LlrpMessage.wire m ++ rest ∧
        (∀ a, ¬ Answer hs m a) ∧ (llrpLoop hs s).2 = .unknownHeader m.header.toNat)
  | s, hl => by
    cases e : readMessage s with
    | none => exact ⟨[], s, by simp, rfl, by rw [llrpLoop_none e]; exact .nil, .inl (by rw [llrpLoop_none e])⟩
    | some r =>
      obtain ⟨h, mid, body, rest⟩ := r
      obtain ⟨m, m1, rfl, rfl, m4⟩ := readMessage_inv e hl
      have hlt := readMessage_shorter e
      rw [llrpLoop_some e]
      cases hsw : llrpSwitch hs m.header.toNat m.body with
      | none =>
        refine ⟨[], s, by simp, rfl, .nil, .inr ⟨m, rest, m4, fun a ha => ?_, rfl⟩⟩
        exact llrpSwitch_none hsw ha
      | some a =>
        obtain ⟨ms, tail, a1, a2, a3, a4⟩ := C60_consumed hs rest (by omega)
        refine ⟨m :: ms, tail, ?_, ?_, .cons (llrpSwitch_sound hsw) a3, a4⟩
        · intro x hx
          rcases List.mem_cons.mp hx with rfl | hx
          · exact m1
          · exact a1 x hx
        · rw [List.flatMap_cons, List.append_assoc, ← a2]
          exact m4
termination_by s => s.length

/-- C60: it does not matter in what portions the bytes arrive: with more bytes the loop goes on from
    where it was. -/
theorem C60_portions (hs : LlrpHeaders) : ∀ (s t taken : List Byte), (llrpLoop hs s).2 = .waiting taken →
    llrpLoop hs (s ++ t) =
      ((llrpLoop hs s).1 ++ (llrpLoop hs (taken ++ t)).1, (llrpLoop hs (taken ++ t)).2)
  | s, t, taken, h => by
    cases e : readMessage s with
    | none =>
      rw [llrpLoop_none e] at h ⊢
      cases h
      rfl
    | some r =>
      obtain ⟨hd, mid, body, rest⟩ := r
      have hlt := readMessage_shorter e
      rw [llrpLoop_some e] at h ⊢
      rw [llrpLoop_some (readMessage_append e t)]
      cases hsw : llrpSwitch hs hd body with
      | none => rw [hsw] at h; cases h
      | some a =>
        rw [hsw] at h
        dsimp only at h ⊢
        rw [C60_portions hs rest t taken h]
        rfl
termination_by s => s.length

/-- C60: a message with any other header ends the program. -/
theorem C60_unknown {hs : LlrpHeaders} {m : LlrpMessage} (hm : m.Fits) (hn : ∀ a, ¬ Answer hs m a)
    (rest : List Byte) : llrpLoop hs (m.wire ++ rest) = ([], .unknownHeader m.header.toNat) := by
  rw [llrpLoop_some (readMessage_wire m hm rest)]
  cases h : llrpSwitch hs m.header.toNat m.body with
  | none => rfl
  | some a => exact absurd (llrpSwitch_sound h) (hn a)

/-- C60: a length field `n` below ten underflows: the loop asks for `2^32 + n - 10` more bytes, and
    whatever else comes before that is swallowed without an answer. -/
theorem C60_underflow {hs : LlrpHeaders} (header : BitVec 16) (n id : BitVec 32) (hn : n.toNat < 10)
    (rest : List Byte) :
    (rest.length < 2 ^ 32 + n.toNat - 10 →
      llrpLoop hs (wire16 header ++ wire32 n ++ wire32 id ++ rest) =
        ([], .waiting (wire16 header ++ wire32 n ++ wire32 id ++ rest))) ∧
    (2 ^ 32 + n.toNat - 10 ≤ rest.length → header.toNat = hs.keepalive → hs.Distinct →
      llrpLoop hs (wire16 header ++ wire32 n ++ wire32 id ++ rest) =
        (.keepaliveAck :: (llrpLoop hs (rest.drop (2 ^ 32 + n.toNat - 10))).1,
          (llrpLoop hs (rest.drop (2 ^ 32 + n.toNat - 10))).2)) := by
  have hsz : messageSize (wire32 n) = 2 ^ 32 + n.toNat - 10 := by
    rw [messageSize_eq, bigEndian_wire32]
    omega
  have h10 : ¬ (wire16 header ++ wire32 n ++ wire32 id ++ rest).length < 10 := by
    simp [wire16, wire32]
  have e1 : (wire16 header ++ wire32 n ++ wire32 id ++ rest).drop 10 = rest := by simp [wire16, wire32]
  have e2 : ((wire16 header ++ wire32 n ++ wire32 id ++ rest).drop 2).take 4 = wire32 n := by
    simp [wire16, wire32]
  have e3 : (wire16 header ++ wire32 n ++ wire32 id ++ rest).take 2 = wire16 header := by
    simp [wire16, wire32]
  constructor
  · intro hl
    refine llrpLoop_none ?_
    unfold readMessage
    rw [if_neg h10]
    dsimp only
    rw [e1, e2, hsz, if_pos hl]
  · intro hl hk hd
    have hr : readMessage (wire16 header ++ wire32 n ++ wire32 id ++ rest) = some (header.toNat,
        bigEndian (((wire16 header ++ wire32 n ++ wire32 id ++ rest).drop 6).take 4),
        rest.take (2 ^ 32 + n.toNat - 10), rest.drop (2 ^ 32 + n.toNat - 10)) := by
      unfold readMessage
      rw [if_neg h10]
      dsimp only
      rw [e1, e2, hsz, if_neg (by omega), e3, bigEndian_wire16]
    rw [llrpLoop_some hr]
    have := llrpSwitch_answer hd (m := ⟨header, 0, rest.take (2 ^ 32 + n.toNat - 10)⟩) (.keepalive _ hk)
    dsimp only at this
    rw [this]

/-- the header values of LLRP with version bits -/
def someHeaders : LlrpHeaders := ⟨0x043F, 0x043E, 0x040D, 0x043D⟩

example : someHeaders.Distinct := by unfold LlrpHeaders.Distinct; decide

example : Answers someHeaders [⟨0x043F, 7, [1, 2]⟩, ⟨0x043E, 8, []⟩, ⟨0x043D, 9, [3, 4, 5]⟩]
    [.setReaderConfig, .keepaliveAck, .report [3, 4, 5]] :=
  .cons (.notification _ (by decide)) (.cons (.keepalive _ (by decide)) (.cons (.report _ (by decide)) .nil))

example : ∀ a, ¬ Answer someHeaders ⟨0x0401, 0, []⟩ a := by
  rintro a (h | h | h | h) <;> exact absurd ‹_› (by decide)

example : (⟨0x043D, 9, [3, 4, 5]⟩ : LlrpMessage).wire =
    [0x04, 0x3D, 0, 0, 0, 13, 0, 0, 0, 9, 3, 4, 5] := by decide

/-! ## C61 -/

/-- C61: for each destination exactly the identities of the events reported for it are collected, in
    the order of the events and as often as reported; events in error contribute nothing, and there are
    no other destinations. -/
theorem C61_collected (results : List SearchResult) (d : Str) :
    mapGet (collectReports results) d = if owed results d = [] then none else some (owed results d) := by
  rw [collectReports, collect_foldl]
  rfl

theorem C61_is_map (results : List SearchResult) : IsMap (collectReports results) :=
  isMap_collect results [] List.nodup_nil

/-- C61 with the List engine: a destination gets the identity of each tag once for each of its
    filters that starts the tag's bits. -/
theorem C61_list (mk : Encoder) (tr : Translator) (sub : Subs) (ident : List Byte × List Byte → Str)
    (batch : List (List Byte × List Byte))
    (hc : ∀ e ∈ batch, Covered (toByteSubscriptions mk sub) e.2)
    (ht : ∀ e ∈ batch, tr e.1 e.2 = some (ident e, false)) :
    ∃ results, batch.mapM (fun e => (newList mk sub).search tr e.1 e.2) = some results ∧
      ∀ d, owed results d = batch.flatMap fun e => List.replicate
        ((toByteSubscriptions mk sub).filter fun p => decide (p.1 <+: bitsOf e.2 ∧ p.2 = d)).length (ident e) := by
  induction batch with
  | nil => exact ⟨[], rfl, fun d => rfl⟩
  | cons e batch ih =>
    obtain ⟨rs, h1, h2⟩ := ih (fun x hx => hc x (List.mem_cons_of_mem _ hx))
      fun x hx => ht x (List.mem_cons_of_mem _ hx)
    obtain ⟨uris, ⟨hits, u1, u2, rfl⟩, u3, u4⟩ := C16_search mk tr sub e.1 e.2 (hc e List.mem_cons_self)
    have hm := isMap_toByteSubscriptions mk sub
    have hcount : ∀ d, ((toByteSubscriptions mk sub).filter
        fun p => decide (p.1 <+: bitsOf e.2 ∧ p.2 = d)).length = (hits.map Prod.snd).count d := by
      intro d
      have hp : hits.Perm ((toByteSubscriptions mk sub).filter fun p => decide (p.1 <+: bitsOf e.2)) := by
        refine (List.perm_ext_iff_of_nodup ?_ ?_).mpr ?_
        · exact (List.pairwise_map.mp u1).imp fun h => by rintro rfl; exact List.lt_irrefl _ h
        · exact ((List.pairwise_map.mp hm).imp fun h => by rintro rfl; exact h rfl : List.Nodup _).filter _
        · rintro ⟨k, u⟩
          rw [u2, List.mem_filter, decide_eq_true_iff]
      rw [(hp.map Prod.snd).count_eq, List.count_eq_countP, List.countP_map, List.countP_filter,
        List.countP_eq_length_filter]
      congr 2
      funext p
      simp [Bool.and_comm, Bool.beq_eq_decide_eq]
    have hs : ∃ r, (newList mk sub).search tr e.1 e.2 = some r ∧ ∀ d, owed (r :: rs) d =
        List.replicate ((hits.map Prod.snd).count d) (ident e) ++ owed rs d := by
      by_cases h0 : hits.map Prod.snd = []
      · exact ⟨_, u3 h0, fun d => by simp [owed_cons, h0]⟩
      · refine ⟨⟨ident e, hits.map Prod.snd, false⟩, ?_, fun d => ?_⟩
        · rw [u4 h0, ht e List.mem_cons_self]; rfl
        · simp [owed_cons]
    obtain ⟨r, r1, r2⟩ := hs
    refine ⟨r :: rs, ?_, fun d => ?_⟩
    · rw [List.mapM_cons, r1, h1]; rfl
    · rw [r2, List.flatMap_cons, hcount, h2]

example : collectReports [⟨"t1".toList, ["a".toList, "b".toList, "a".toList], false⟩, ⟨"t2".toList, ["a".toList], true⟩,
    ⟨"t3".toList, ["b".toList], false⟩] =
    [("a".toList, ["t1".toList, "t1".toList]), ("b".toList, ["t1".toList, "t3".toList])] := by decide +kernel

end Gosstrak
