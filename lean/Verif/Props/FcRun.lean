import Verif.Proofs.FcRun
import Verif.Props.Main
import Verif.Props.EndToEnd

/-! # C90: `gosstrak-fc` from the bytes of the reader to the collected reports -/
namespace Gosstrak

variable {σ : Type} {env : FcEnv} {ans : AnswerRel σ}

/-- what is known of a run over a stream of whole messages -/
theorem run_messages {start : σ} {flag : Option Int} {ls : List FcLabel} {s : Fc σ}
    (h : FcRun env ans (fcStart start flag) ls s) (hd : env.headers.Distinct)
    {ms : List LlrpMessage} {as : List LlrpAction} (hm : ∀ m ∈ ms, m.Fits) (ha : Answers env.headers ms as)
    {rest : List Byte} (hb : arrivedIn ls = ms.flatMap LlrpMessage.wire ++ rest) :
    ∃ taken, FcInv env ans start (arrivedIn ls) taken s ∧
      taken ++ (llrpLoop env.headers s.pending).1 = as ++ (llrpLoop env.headers rest).1 ∧
      (llrpLoop env.headers s.pending).2 = (llrpLoop env.headers rest).2 := by
  obtain ⟨taken, hi⟩ := fcInv_run h
  obtain ⟨c, h1, h2⟩ := hi.consumed
  have e := h2 s.pending
  rw [← h1, hb, C60_aligned hd hm ha] at e
  simp only [Prod.mk.injEq] at e
  exact ⟨taken, hi, e.1.symm, e.2.symm⟩

theorem waiting_short {hs : LlrpHeaders} {bs : List Byte} (h : readMessage bs = none) :
    llrpLoop hs bs = ([], .waiting bs) := llrpLoop_none h

theorem map_some_inj {α : Type} : ∀ {l l' : List α}, l.map some = l'.map some → l = l'
  | [], [], _ => rfl
  | [], _ :: _, h => by cases h
  | _ :: _, [], h => by cases h
  | a :: l, b :: l', h => by
    simp only [List.map_cons, List.cons.injEq, Option.some.injEq] at h
    rw [h.1, map_some_inj h.2]

theorem map_some_prefix {α : Type} {l l' : List α} (h : l.map some <+: l'.map some) : l <+: l' := by
  have e := List.prefix_iff_eq_take.mp h
  rw [List.length_map, ← List.map_take] at e
  rw [map_some_inj e]
  exact List.take_prefix _ _

/-- C90, at any moment: the replies written are those owed for the first messages that have come, all
    with message id 0, and the batches are those of the reports among these messages, in order; the
    batches that are done have the reports collected of the answers that the factory gives one after another. -/
theorem C90_in_order {start : σ} {flag : Option Int} {ls : List FcLabel} {s : Fc σ}
    (h : FcRun env ans (fcStart start flag) ls s) :
    ∃ taken, taken <+: (llrpLoop env.headers (arrivedIn ls)).1 ∧ s.written = repliesTo 0#32 taken ∧
      s.batches.map some <+: (reportBodies taken).map env.decode ∧
      (s.ended ≠ some .panic → s.batches.map some = (reportBodies taken).map env.decode) ∧
      ∃ y, Collected ans start s.done y := by
  obtain ⟨taken, hi⟩ := fcInv_run h
  obtain ⟨c, h1, h2⟩ := hi.consumed
  have e := h2 s.pending
  rw [← h1] at e
  refine ⟨taken, ?_, hi.written, hi.batches, hi.all, hi.done.imp fun _ h => h.1⟩
  rw [e]
  exact List.prefix_append _ _

/-- C90: whatever the command line says, every reply has the message id 0. -/
theorem C90_message_id {start : σ} {flag : Option Int} {ls : List FcLabel} {s : Fc σ}
    (h : FcRun env ans (fcStart start flag) ls s) :
    ∀ r ∈ s.written, r = .setReaderConfig 0#32 ∨ r = .keepaliveAck 0#32 := by
  obtain ⟨taken, hi⟩ := fcInv_run h
  rw [hi.written]
  intro r hr
  obtain ⟨a, -, ha⟩ := List.mem_filterMap.mp hr
  cases a <;> cases ha
  · exact Or.inl rfl
  · exact Or.inr rfl

/-- C90: left alone by the reader, the program makes only so many moves. -/
theorem C90_bounded (env : FcEnv) (ans : AnswerRel σ) (s : Fc σ) :
    ∃ n, ∀ ls t, FcRun env ans s ls t → (∀ l ∈ ls, l.Own) → ls.length ≤ n :=
  ⟨fcWork env s, fun _ _ h ho => Nat.le_trans (Nat.le_add_right _ _) (fcWork_run h ho)⟩

theorem fcRun_append {s t u : Fc σ} {ls ls' : List FcLabel} (h : FcRun env ans s ls t)
    (h' : FcRun env ans t ls' u) : FcRun env ans s (ls ++ ls') u := by
  induction h' with
  | nil => rw [List.append_nil]; exact h
  | snoc _ hs ih => rw [← List.append_assoc]; exact .snoc ih hs

/-- C90: and it does come to rest. -/
theorem C90_comes_to_rest (env : FcEnv) (ans : AnswerRel σ) (s : Fc σ) :
    ∃ ls t, FcRun env ans s ls t ∧ (∀ l ∈ ls, l.Own) ∧ t.AtRest env ans := by
  generalize hn : fcWork env s = n
  induction n using Nat.strongRecOn generalizing s with
  | _ n ih =>
    by_cases hr : s.AtRest env ans
    · exact ⟨[], s, .nil s, by simp, hr⟩
    · simp only [Fc.AtRest, Classical.not_forall, Classical.not_not] at hr
      obtain ⟨l, t, ho, hs⟩ := hr
      obtain ⟨ls, u, h1, h2, h3⟩ := ih _ (hn ▸ fcWork_step hs ho) t rfl
      refine ⟨[l] ++ ls, u, fcRun_append (.snoc (.nil s) hs) h1, ?_, h3⟩
      intro l' hl'
      rcases List.mem_append.mp hl' with h | h
      · rw [List.mem_singleton] at h; rw [h]; exact ho
      · exact h2 l' h

/-- C90: the reader has sent whole messages the program knows and perhaps part of another. If it has not
    closed the connection, every report can be decoded and every search in its batches returns, then at
    rest the program has not ended, has answered every message and has collected every batch. -/
theorem C90_messages {start : σ} {flag : Option Int} {ls : List FcLabel} {s : Fc σ}
    (h : FcRun env ans (fcStart start flag) ls s) (hd : env.headers.Distinct)
    {ms : List LlrpMessage} {as : List LlrpAction} (hm : ∀ m ∈ ms, m.Fits) (ha : Answers env.headers ms as)
    {rest : List Byte} (hrest : readMessage rest = none)
    (hb : arrivedIn ls = ms.flatMap LlrpMessage.wire ++ rest) (heof : .eof ∉ ls)
    {batches : List (List ReadEvent)} (hdec : (reportBodies as).map env.decode = batches.map some)
    (hans : AlwaysAnswers ans start batches.flatten) (hr : s.AtRest env ans) :
    s.ended = none ∧ s.main = .reading ∧ s.listener = .waiting ∧ s.pending = rest ∧
      s.written = repliesTo 0#32 as ∧ s.done.map Prod.fst = batches ∧ Collected ans start s.done s.factory := by
  obtain ⟨taken, hi, e1, e2⟩ := run_messages h hd hm ha hb
  rw [waiting_short hrest, List.append_nil] at e1
  rw [waiting_short hrest] at e2
  have hpre : (reportBodies taken).map env.decode <+: batches.map some := by
    rw [← hdec, ← e1, reportBodies_append, List.map_append]
    exact List.prefix_append _ _
  have hin : s.batches <+: batches := map_some_prefix (hi.batches.trans hpre)
  obtain ⟨more, hmore⟩ := hin
  have hext : ∀ before e after, s.batches.flatten = before ++ e :: after →
      batches.flatten = before ++ e :: (after ++ more.flatten) := by
    intro before e after h
    rw [← hmore, List.flatten_append, h]
    simp
  have hend : s.ended = none := by
    cases he : s.ended with
    | none => rfl
    | some w =>
      exfalso
      cases w with
      | fatal =>
        rcases fatal_why h rfl he with h1 | ⟨n, h1⟩
        · exact heof h1
        · rw [e2] at h1; cases h1
      | panic =>
        rcases hi.why he with h1 | ⟨before, e, after, results, y, h1, h2, h3⟩
        · obtain ⟨b, -, hn⟩ := List.mem_map.mp (hpre.subset h1)
          cases hn
        · exact (hans before e _ results y (hext _ _ _ h1) h2).1 h3
  obtain ⟨r1, r2, r3⟩ := rest_idle hr hend fun batch e todo reports hl => by
    obtain ⟨before, after, results, h1, h2⟩ := searching_answered hi hl
    obtain ⟨r, hr⟩ := (hans before e _ results _ (hext _ _ _ h1) h2).2
    exact ⟨some r, hr⟩
  rw [waiting_short r3, List.append_nil] at e1
  rw [waiting_short r3] at e2
  subst e1
  obtain ⟨y, d1, d2, -⟩ := hi.done
  refine ⟨hend, r1, r2, by cases e2; rfl, hi.written, ?_, by rw [d2 r2]; exact d1⟩
  have hall := hi.all (by rw [hend]; simp)
  rw [hdec] at hall
  unfold Fc.batches Fc.underWay at hall
  rw [r1, r2] at hall
  simp only [List.append_nil] at hall
  exact map_some_inj hall

/-- C90: why the program ends: the reader has closed the connection or sent a message with another
    header, the decoding of a report has panicked, or a search has, after those for the tags before it. -/
theorem C90_why {start : σ} {flag : Option Int} {ls : List FcLabel} {s : Fc σ}
    (h : FcRun env ans (fcStart start flag) ls s) (he : s.ended ≠ none) :
    .eof ∈ ls ∨ (∃ n, (llrpLoop env.headers (arrivedIn ls)).2 = .unknownHeader n) ∨
      (∃ body ∈ reportBodies (llrpLoop env.headers (arrivedIn ls)).1, env.decode body = none) ∨
      ∃ batches : List (List ReadEvent), batches.map some <+: (reportBodies (llrpLoop env.headers (arrivedIn ls)).1).map env.decode ∧
        ∃ before e after results y, batches.flatten = before ++ e :: after ∧
          Answered ans start before results y ∧ ans y e none := by
  obtain ⟨taken, hi⟩ := fcInv_run h
  obtain ⟨c, h1, h2⟩ := hi.consumed
  have e := h2 s.pending
  rw [← h1] at e
  rw [e]
  cases hw : s.ended with
  | none => exact absurd hw he
  | some w =>
    cases w with
    | fatal =>
      rcases fatal_why h rfl hw with h1 | h1
      · exact Or.inl h1
      · exact Or.inr (Or.inl h1)
    | panic =>
      right; right
      rcases hi.why hw with h1 | h1
      · obtain ⟨b, hb, hn⟩ := List.mem_map.mp h1
        refine Or.inl ⟨b, ?_, hn⟩
        rw [reportBodies_append]
        exact List.mem_append_left _ hb
      · refine Or.inr ⟨s.batches, hi.batches.trans ?_, h1⟩
        rw [reportBodies_append, List.map_append]
        exact List.prefix_append _ _

theorem answered_some {x y : σ} {es : List ReadEvent} {rs : List SearchResult} (h : Answered ans x es rs y) :
    ∀ e ∈ es, ∃ z r, ans z e (some r) := by
  induction h with
  | nil => intro e he; cases he
  | cons h _ ih =>
    intro e he
    rcases List.mem_cons.mp he with rfl | he
    · exact ⟨_, _, h⟩
    · exact ih e he

/-- C90: a report that cannot be decoded, a tag for which the search can only panic, or a message with
    another header: once these messages have come the program cannot rest without having ended. -/
theorem C90_ends {start : σ} {flag : Option Int} {ls : List FcLabel} {s : Fc σ}
    (h : FcRun env ans (fcStart start flag) ls s) (htot : ∀ x e, ∃ r, ans x e r)
    (hbad : (∃ n, (llrpLoop env.headers (arrivedIn ls)).2 = .unknownHeader n) ∨
      (∃ body ∈ reportBodies (llrpLoop env.headers (arrivedIn ls)).1, env.decode body = none) ∨
      ∃ body ∈ reportBodies (llrpLoop env.headers (arrivedIn ls)).1, ∃ batch, env.decode body = some batch ∧
        ∃ e ∈ batch, ∀ x r, ¬ ans x e (some r))
    (hr : s.AtRest env ans) : s.ended ≠ none := by
  intro hend
  obtain ⟨taken, hi⟩ := fcInv_run h
  obtain ⟨c, h1, h2⟩ := hi.consumed
  have e := h2 s.pending
  rw [← h1] at e
  obtain ⟨r1, r2, r3⟩ := rest_idle hr hend fun _ _ _ _ _ => htot _ _
  rw [waiting_short r3, List.append_nil] at e
  rw [e] at hbad
  have hall := hi.all (by rw [hend]; simp)
  rcases hbad with ⟨n, hn⟩ | ⟨body, hbody, hn⟩ | ⟨body, hbody, batch, hn, ev, hev, hno⟩
  · cases hn
  · have : none ∈ s.batches.map some := by
      rw [hall]; exact List.mem_map.mpr ⟨body, hbody, hn⟩
    obtain ⟨_, -, h0⟩ := List.mem_map.mp this
    cases h0
  · have : some batch ∈ s.batches.map some := by
      rw [hall]; exact List.mem_map.mpr ⟨body, hbody, hn⟩
    obtain ⟨_, hb, h0⟩ := List.mem_map.mp this
    cases h0
    unfold Fc.batches Fc.underWay at hb
    rw [r1, r2] at hb
    simp only [List.append_nil] at hb
    obtain ⟨y, d1, -⟩ := hi.done
    obtain ⟨results, d2⟩ := collected_answered d1
    obtain ⟨z, r, hz⟩ := answered_some d2 ev (List.mem_flatten.mpr ⟨batch, hb, hev⟩)
    exact hno z r hz

/-- C90: what was under way is lost: a report that is followed by a message with another header, or by
    the end of the connection, may have been decoded and handed over and never be collected. -/
theorem C90_lost (start : σ) (flag : Option Int) {m m' : LlrpMessage} (hm : m.Fits) (hm' : m'.Fits)
    (hd : env.headers.Distinct) (ha : m.header.toNat = env.headers.roAccessReport)
    (ha' : ∀ a, ¬ Answer env.headers m' a) {batch : List ReadEvent} (hb : env.decode m.body = some batch) :
    (∃ s, FcRun env ans (fcStart start flag) [.arrive (m.wire ++ m'.wire), .read, .hand, .read] s ∧
      s.ended = some .fatal ∧ s.batches = [batch] ∧ s.done = []) ∧
    (∃ s, FcRun env ans (fcStart start flag) [.arrive m.wire, .read, .hand, .eof] s ∧
      s.ended = some .fatal ∧ s.batches = [batch] ∧ s.done = []) := by
  have hsw := llrpSwitch_answer hd (m := m) (.report m ha)
  have hsw' : llrpSwitch env.headers m'.header.toNat m'.body = none := by
    cases h : llrpSwitch env.headers m'.header.toNat m'.body with
    | none => rfl
    | some a => exact absurd (llrpSwitch_sound h) (ha' a)
  have hact : ∀ s : Fc σ, fcAct env s (.report m.body) = { s with main := .handing batch } := by
    intro s
    unfold fcAct
    dsimp only
    rw [hb]
  have base : ∀ rest : List Byte, FcRun env ans (fcStart start flag) [.arrive (m.wire ++ rest), .read, .hand]
      { fcStart start flag with pending := rest, listener := .searching batch batch [] } := by
    intro rest
    refine .snoc (ls := [_, _]) (.snoc (ls := [_]) (.snoc (ls := []) (.nil _) (.arrive rfl))
      (.read (mid := m.id.toNat) (body := m.body) (rest := rest) (a := .report m.body) rfl rfl ?_ hsw)) ?_
    · have := readMessage_wire m hm rest
      exact this
    · rw [hact]
      exact FcStep.hand (batch := batch) rfl rfl rfl
  refine ⟨⟨{ fcStart start flag with
      pending := m'.wire, listener := .searching batch batch [], ended := some .fatal }, ?_, rfl, rfl, rfl⟩,
    ⟨{ fcStart start flag with pending := [], listener := .searching batch batch [], ended := some .fatal },
      ?_, rfl, rfl, rfl⟩⟩
  · refine .snoc (ls := [_, _, _]) (base m'.wire) (.unknown (mid := m'.id.toNat) (rest := []) rfl rfl ?_ hsw')
    have := readMessage_wire m' hm' []
    rw [List.append_nil] at this
    exact this
  · have := base []
    rw [List.append_nil] at this
    exact .snoc (ls := [_, _, _]) this (.eof rfl rfl rfl)

/-- what the list engine for a map of subscriptions answers; a search does not change it -/
def listAnswers (x : Binutil) (order : Subs) : AnswerRel Unit := fun _ e r =>
  ((newList x.encoder order).search translate e.1 e.2).map (·, ()) = r

theorem answered_list {x : Binutil} {order : Subs} {es : List ReadEvent} {rs : List SearchResult} {a b : Unit}
    (h : Answered (listAnswers x order) a es rs b) :
    es.mapM (fun e => (newList x.encoder order).search translate e.1 e.2) = some rs := by
  induction h with
  | nil => rfl
  | @cons _ _ _ e r _ _ h _ ih =>
    have : (newList x.encoder order).search translate e.1 e.2 = some r := by
      unfold listAnswers at h
      cases h' : (newList x.encoder order).search translate e.1 e.2 with
      | none => rw [h'] at h; cases h
      | some r' => rw [h'] at h; cases h; rfl
    rw [List.mapM_cons, this, ih]; rfl

theorem collected_mem {x y : σ} {l : List (List ReadEvent × List (Str × List Str))}
    (h : Collected ans x l y) : ∀ p ∈ l, ∃ a b results, Answered ans a p.1 results b ∧
      p.2 = collectReports results := by
  induction h with
  | nil => intro p hp; cases hp
  | cons h _ ih =>
    intro p hp
    rcases List.mem_cons.mp hp with rfl | hp
    · exact ⟨_, _, _, h, rfl⟩
    · exact ih p hp

/-- C90 with the list engine for a file of subscriptions, from the bytes of the reader: at rest every
    batch has been collected, and each destination has the identities of the tags due to it. -/
theorem C90_file (x : Binutil) (hx : x.Ok) (records : List (List Str)) (hf : FileOk records)
    (hn : NoRivals records) (hd : env.headers.Distinct) :
    ∃ sub, loadRecords records = some sub ∧ ∀ order : Subs, order.Perm sub →
      ∀ {flag : Option Int} {ls : List FcLabel} {s : Fc Unit},
        FcRun env (listAnswers x order) (fcStart () flag) ls s → s.AtRest env (listAnswers x order) →
        ∀ {ms : List LlrpMessage} {as : List LlrpAction} {rest : List Byte} {batches : List (List ReadEvent)}
          {ident : ReadEvent → Str},
        (∀ m ∈ ms, m.Fits) → Answers env.headers ms as → readMessage rest = none →
        arrivedIn ls = ms.flatMap LlrpMessage.wire ++ rest → .eof ∉ ls →
        (reportBodies as).map env.decode = batches.map some →
        (∀ b ∈ batches, ∀ e ∈ b, e.2.length = 12 ∧ translate e.1 e.2 = some (ident e, false)) →
        s.ended = none ∧ s.written = repliesTo 0#32 as ∧ s.done.map Prod.fst = batches ∧
          ∀ p ∈ s.done, ∀ d, (mapGet p.2 d = none ↔ ∀ e ∈ p.1, ¬ Due records e.2 d) ∧
            ∃ n : ReadEvent → Nat, (∀ e ∈ p.1, ∃ l, DuePatterns records e.2 d l ∧ n e = l.length) ∧
              (mapGet p.2 d).getD [] = p.1.flatMap fun e => List.replicate (n e) (ident e) := by
  obtain ⟨sub, l1, l2⟩ := C89_batch x hx records hf hn
  obtain ⟨sub', l1', l2'⟩ := C89_exact x hx records hf hn
  rw [l1] at l1'
  cases l1'
  refine ⟨sub, l1, ?_⟩
  intro order hp flag ls s h hr ms as rest batches ident hm ha hrest hb heof hdec hid
  obtain ⟨r1, -, -, -, r2, r3, r4⟩ := C90_messages h hd hm ha hrest hb heof hdec (by
    intro before e after results y he hA
    obtain ⟨b, hb, he'⟩ := List.mem_flatten.mp (he ▸ (by simp) : e ∈ batches.flatten)
    obtain ⟨r, e1, -⟩ := l2' order hp e.1 e.2 (ident e) (hid b hb e he').1 (hid b hb e he').2
    refine ⟨fun hno => ?_, (r, ()), ?_⟩
    · unfold listAnswers at hno; rw [e1] at hno; cases hno
    · unfold listAnswers; rw [e1]; rfl) hr
  refine ⟨r1, r2, r3, fun p hpd => ?_⟩
  obtain ⟨_, _, results, g1, g2⟩ := collected_mem r4 p hpd
  have hpb : p.1 ∈ batches := by rw [← r3]; exact List.mem_map.mpr ⟨p, hpd, rfl⟩
  obtain ⟨results', q1, q2⟩ := l2 order hp p.1 ident (hid p.1 hpb)
  rw [answered_list g1] at q1
  cases q1
  rw [g2]
  exact q2

/-- C90 with the list engine: a tag that is due to somebody and whose translation crashes ends the
    program, once the report with it has come. -/
theorem C90_killer (x : Binutil) (hx : x.Ok) (records : List (List Str)) (hf : FileOk records) :
    ∃ sub, loadRecords records = some sub ∧ ∀ order : Subs, order.Perm sub →
      ∀ {flag : Option Int} {ls : List FcLabel} {s : Fc Unit},
        FcRun env (listAnswers x order) (fcStart () flag) ls s → s.AtRest env (listAnswers x order) →
        ∀ {body : List Byte} {batch : List ReadEvent} {e : ReadEvent} {u : Str},
          body ∈ reportBodies (llrpLoop env.headers (arrivedIn ls)).1 → env.decode body = some batch → e ∈ batch →
          e.2.length = 12 → Due records e.2 u → translate e.1 e.2 = none → s.ended ≠ none := by
  obtain ⟨sub, l1, l2, l3⟩ := C65_loaded records fun r hr => (hf r hr).1
  refine ⟨sub, l1, ?_⟩
  intro order hp flag ls s h hr body batch e u hbody hdec he hl hdue htr
  refine C90_ends h (fun x e => ⟨_, rfl⟩)
    (Or.inr (Or.inr ⟨body, hbody, batch, hdec, e, he, fun _ r hs => ?_⟩)) hr
  have hs' := loaded_subscribes x hx hp (loaded_mem hf l2 l3)
  have hc := file_covered x hx hs' e.2 hl
  obtain ⟨uris, ⟨hits, -, k2, rfl⟩, h2, h3⟩ := C16_search x.encoder translate order e.1 e.2 hc
  obtain ⟨sc, f, hsub, hhas⟩ := hdue
  obtain ⟨k, ek, -⟩ := encoder_carries x hx sc f (wellFormed_encodable sc f hsub.1)
  obtain ⟨v, hv⟩ := mem_bytes_of_subscribes ((hs' u k).mpr ⟨sc, f, hsub, ek⟩)
  have hpre := ((encoder_prefix x hx hsub.1 ek).2.2.2 e.2 hl).mpr hhas
  have hne : hits.map Prod.snd ≠ [] := List.ne_nil_of_mem (List.mem_map.mpr ⟨(k, v), (k2 k v).mpr ⟨hv, hpre⟩, rfl⟩)
  unfold listAnswers at hs
  rw [h3 hne, htr] at hs
  cases hs

/-! ## Cases -/

private def sampleEnv : FcEnv :=
  ⟨someHeaders, fun body => some [([48#8, 0#8], body)]⟩

private def evA : ReadEvent := ([48#8, 0#8], [1#8])

private def sampleAns : AnswerRel Nat := fun n e r =>
  r = some (⟨"t".toList, ["http://a".toList], e ≠ evA⟩, n + 1)

private def stream : List Byte :=
  (⟨0x043F, 7, [2]⟩ : LlrpMessage).wire ++ (⟨0x043D, 9, [1]⟩ : LlrpMessage).wire ++ [4, 0x3E, 0]

-- test: a whole run, with the bytes in two portions, to a state at rest
private def restState : Fc Nat :=
  ⟨1, ⟨77, 0#32⟩, [4, 0x3E, 0], .reading, .waiting, [.setReaderConfig 0#32],
    [([evA], [("http://a".toList, ["t".toList])])], none⟩

example : FcRun sampleEnv sampleAns (fcStart 0 (some 77))
    [.arrive (stream.take 5), .arrive (stream.drop 5), .read, .read, .hand,
      .search (some ⟨"t".toList, ["http://a".toList], false⟩), .finish] restState := by
  have h1 : FcRun sampleEnv sampleAns (fcStart 0 (some 77)) [.arrive (stream.take 5), .arrive (stream.drop 5)]
      { fcStart 0 (some 77) with pending := stream } :=
    .snoc (ls := [_]) (.snoc (ls := []) (.nil _) (.arrive rfl)) (.arrive rfl)
  have h2 : FcStep sampleEnv sampleAns { fcStart 0 (some 77) with pending := stream } .read _ :=
    .read (h := 0x043F) (mid := 7) (body := [2]) (rest := stream.drop 11) (a := .setReaderConfig) rfl rfl
      (by decide +kernel) (by decide +kernel)
  have h3 := FcRun.snoc h1 h2
  have h4 := FcRun.snoc h3 (.read (h := 0x043D) (mid := 9) (body := [1]) (rest := [4, 0x3E, 0])
    (a := .report [1]) rfl rfl (by decide +kernel) (by decide +kernel))
  have h5 := FcRun.snoc h4 (.hand (batch := [evA]) rfl rfl rfl)
  have h6 := FcRun.snoc h5 (.search (batch := [evA]) (todo := []) (e := evA) (reports := [])
    (r := ⟨"t".toList, ["http://a".toList], false⟩) (factory := 1) rfl rfl (by unfold sampleAns; rw [show decide (evA ≠ evA) = false from by decide]; rfl))
  exact FcRun.snoc h6 (.finish (batch := [evA]) rfl (by rfl))

example : restState.AtRest sampleEnv sampleAns := by
  intro l t ho h
  cases h with
  | arrive => exact ho
  | eof => exact ho
  | read he hm hr ha => exact absurd hr (by rw [show readMessage restState.pending = none from by decide +kernel]; simp)
  | unknown he hm hr ha => exact absurd hr (by rw [show readMessage restState.pending = none from by decide +kernel]; simp)
  | hand he hm hl => cases hm
  | search he hl ha => cases hl
  | crash he hl ha => cases hl
  | finish he hl => cases hl

-- test: the stream of C90_messages for that run
example : stream = [(⟨0x043F, 7, [2]⟩ : LlrpMessage), ⟨0x043D, 9, [1]⟩].flatMap LlrpMessage.wire ++ [4, 0x3E, 0] ∧
    readMessage [4, 0x3E, 0] = none ∧
    (reportBodies [.setReaderConfig, .report [1]]).map sampleEnv.decode = [[evA]].map some := by decide +kernel

-- test: a tag that C90_killer speaks of: the item reference has a digit too many for its partition
private def killerTag : List Byte := [0x30, 0x74, 0x25, 0x7B, 0xF7, 0xFF, 0xFF, 0xC0, 0x00, 0x00, 0x1A, 0x85]

example : killerTag.length = 12 ∧ translate [48#8, 0#8] killerTag = none ∧
    Scheme.sgtin.Has killerTag ["3".toList, "0614141".toList] := by
  refine ⟨rfl, by decide +kernel, ?_⟩
  unfold Scheme.Has; decide +kernel

-- test: a message that the program does not know
example : ∀ a, ¬ Answer sampleEnv.headers ⟨0x0401, 0, []⟩ a := by
  rintro a (h | h | h | h) <;> exact absurd ‹_› (by decide)

end Gosstrak
