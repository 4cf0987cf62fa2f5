import Verif.Proofs.WholeRest
import Verif.Proofs.WholeExec
import Verif.Props.Engines
import Verif.Props.FactoryRest

/-! # C92: the whole of `gosstrak-fc` with all its goroutines -/
namespace Gosstrak

open World

variable {F : Type} {env : FcEnv} {fl : Floats F}

theorem code_engines (fl : Floats F) : (Config.code fl).names ≠ [] ∧ 0 < (Config.code fl).capacity ∧
    ∀ n ∈ (Config.code fl).names, ∃ m : EngineName, m.text = n := by
  refine ⟨by show codeNames ≠ []; decide +kernel, by show 0 < 128; decide, ?_⟩
  have : ∀ n ∈ codeNames, ∃ m ∈ [EngineName.legacy, .list, .patricia, .splay], m.text = n := by decide +kernel
  intro n hn
  obtain ⟨m, -, h⟩ := this n hn
  exact ⟨m, h⟩

/-- C92: whatever the goroutines of the factory do meanwhile, and however often another engine is selected, even
    in the middle of a search: the factory does not end the process, and what is read, written, searched and
    collected is what the program of C90 with the engines of C91 can do for the same bytes, with the searches
    answered by some of the engines that were selected. -/
theorem C92_refines (hf : fl.Lawful) {tr : Translator} {sub : Subs} {E : Engines} {flag : Option Int}
    {ls : List ProgLabel} {s : Prog F}
    (h : ProgRun env (Config.code fl) tr (progStart (Config.code fl) sub E flag) ls s)
    {P : EngineName → Prop} (hsome : ∃ m, P m) (hP : ∀ m : EngineName, m.text ∈ s.chosen → P m) :
    s.world.crashed = false ∧
    ∃ ls' t, FcRun env (enginesAnswer tr fun _ m => P m) (fcStart E flag) ls' t ∧
      arrivedIn ls' = arrivedIn (fcMoves ls) ∧ (FcLabel.eof ∈ ls' ↔ .eof ∈ fcMoves ls) ∧
      t.written = s.fc.written ∧ t.done = s.fc.done ∧ t.ended = s.fc.ended ∧ t.pending = s.fc.pending ∧
      t.batches = s.fc.batches := by
  obtain ⟨ls', E0, h1, h2, h3, -⟩ := prog_refines hf (code_names fl) hsome h hP
  exact ⟨C53_no_crash hf (code_names fl) (prog_reaches hf (code_names fl) h), ls', _, h1, h2, h3, rfl, rfl, rfl, rfl,
    rfl⟩

/-- C92: an engine whose answer is asked for is one of the four, and is ready. -/
theorem C92_chosen (hf : fl.Lawful) {tr : Translator} {sub : Subs} {E : Engines} {flag : Option Int}
    {ls : List ProgLabel} {s : Prog F}
    (h : ProgRun env (Config.code fl) tr (progStart (Config.code fl) sub E flag) ls s) :
    ∀ n ∈ s.chosen, (∃ m : EngineName, m.text = n) ∧ Usable (Config.code fl) sub s.world n := by
  have key : ∀ n ∈ s.chosen, (s.world.gens n).fsm = .ready := by
    have keep : ∀ {s : Prog F} {w : World F} {l : Label} {cs : List Str}, World.step (Config.code fl) s.world l = some w →
        (∀ n ∈ cs, (s.world.gens n).fsm = .ready) → ∀ n ∈ cs, (w.gens n).fsm = .ready :=
      fun hw ih n hn => ready_step (ih n hn) hw
    induction h with
    | nil => intro n hn; cases hn
    | @snoc s u ls l h hs ih =>
      have hr := prog_reaches hf (code_names fl) h
      cases hs with
      | fc ha hf' => exact ih
      | aside he hl hw => exact keep hw ih
      | call he hl hw => exact keep hw ih
      | choose he hs hw =>
        intro n hn
        rcases List.mem_append.mp hn with h' | h'
        · exact keep hw ih n h'
        · rw [List.mem_singleton] at h'
          subst h'
          have hr' := reaches_step hr (C53_no_crash hf (code_names fl) hr) hw
          have hc := C53_no_crash hf (code_names fl) hr'
          refine (C53_searched hf (code_names fl) hr' (n := s.world.current) ?_).2.1
          simp only [World.step, hs] at hw
          split at hw <;> cases hw
          · rfl
          · cases hc
      | engine he hl hs hq hw => exact keep hw ih
      | panic => exact ih
      | ret he hl hs hq hw => exact keep hw ih
  intro n hn
  have := ((Inv.reaches hf (code_names fl) (prog_reaches hf (code_names fl) h)).gens n).ready (key n hn)
  exact ⟨(code_engines fl).2.2 n this.2, this.2, key n hn, this.1⟩

/-- C92: the program is never stuck: as long as it has not ended it rests only when all four engines are ready and
    announced, nothing is to be sent or stored, no whole message is waiting to be read and no batch to be searched. -/
theorem C92_rest (hfl : fl.Lawful) {tr : Translator} {sub : Subs} {E : Engines} {flag : Option Int}
    {ls : List ProgLabel} {s : Prog F}
    (h : ProgRun env (Config.code fl) tr (progStart (Config.code fl) sub E flag) ls s) (he : s.fc.ended = none) :
    s.AtRest env (Config.code fl) tr ↔ World.AtRest (Config.code fl) s.world ∧ s.fc.main = .reading ∧
      s.fc.listener = .waiting ∧ readMessage s.fc.pending = none := by
  obtain ⟨k1, k2, k3⟩ := code_engines fl
  refine ⟨fun hrest => ?_, fun ⟨h1, h2, h3, h4⟩ l t ho hs => ?_⟩
  · obtain ⟨ls', E0, -, -, -, g3⟩ := prog_refines hfl (code_names fl) (P := fun _ => True) ⟨.list, trivial⟩ h
      fun _ _ => trivial
    obtain ⟨g1, g2⟩ := prog_rest hfl (code_names fl) k1 k2 k3 h hrest g3
    refine ⟨g1 he, rest_idle (s := { s.fc with factory := E0 }) (g2 fun _ _ => True) he fun _ e _ _ _ => ?_⟩
    obtain ⟨r, hr⟩ := factorySearch_total tr e .list [] E0
    exact ⟨r, [], .list, trivial, hr⟩
  · have no : ∀ {l w}, l.Own → World.step (Config.code fl) s.world l ≠ some w := fun ho hw => by
      rw [(C83_rest hfl (code_names fl) k2 (prog_reaches hfl (code_names fl) h)).mpr h1 _ ho] at hw
      cases hw
    cases hs with
    | fc ha hf' =>
      cases hf' with
      | arrive => exact ho
      | eof => exact ho
      | read _ _ hr => rw [h4] at hr; cases hr
      | unknown _ _ hr => rw [h4] at hr; cases hr
      | hand _ hm => rw [h2] at hm; cases hm
      | search _ hl => rw [h3] at hl; cases hl
      | crash _ hl => rw [h3] at hl; cases hl
      | finish _ hl => rw [h3] at hl; cases hl
    | aside he hl hw =>
      rcases ho with ho | ⟨o, rfl⟩
      · exact no ho hw
      · exact hl
    | call he hl hw => rw [h3] at hl; cases hl
    | choose he hs hw => rw [h1.searcher] at hs; cases hs
    | engine he hl hs hq hw => rw [h3] at hl; cases hl
    | panic he hl hs hq => rw [h3] at hl; cases hl
    | ret he hl hs hq hw => rw [h3] at hl; cases hl

/-- C92, at any moment: on a file as in C91, if the reader sends whole messages and the tags have identities, the
    program has not ended, it has written the first of the replies owed, the batches done are the first of those
    sent, and each destination has the identities due to it, as long as the legacy engine was not selected for an
    answer. -/
theorem C92_reports (hfl : fl.Lawful) (x : Binutil) (hx : x.Ok) (records : List (List Str)) (hf : FileOk records)
    (hne : ∃ u sc f, FileSubscribes records u sc f) (hn : NoRivals records) (hfork : FileNoForks records)
    (hw : NoWidest records) (hd : env.headers.Distinct) :
    ∃ sub, loadRecords records = some sub ∧ ∀ o1 o2 o3 : Subs, o1.Perm sub → o2.Perm sub → o3.Perm sub →
      ∃ E, newEngines x.encoder sub o1 o2 o3 = some E ∧
      ∀ {flag : Option Int} {ls : List ProgLabel} {s : Prog F},
        ProgRun env (Config.code fl) translate (progStart (Config.code fl) sub E flag) ls s →
        EngineName.legacy.text ∉ s.chosen →
        ∀ {ms : List LlrpMessage} {as : List LlrpAction} {rest : List Byte} {batches : List (List ReadEvent)}
          {ident : ReadEvent → Str},
        (∀ m ∈ ms, m.Fits) → Answers env.headers ms as → readMessage rest = none →
        arrivedIn (fcMoves ls) = ms.flatMap LlrpMessage.wire ++ rest → .eof ∉ fcMoves ls →
        (reportBodies as).map env.decode = batches.map some →
        (∀ b ∈ batches, ∀ e ∈ b, ReadEvent.Has e (ident e)) →
        s.fc.ended = none ∧ s.fc.written <+: repliesTo 0#32 as ∧ s.fc.done.map Prod.fst <+: batches ∧
          ∀ p ∈ s.fc.done, ∀ d, (mapGet p.2 d = none ↔ ∀ e ∈ p.1, ¬ Due records e.2 d) ∧
            ∃ n : ReadEvent → Nat, (∀ e ∈ p.1, ∃ l, DuePatterns records e.2 d l ∧ n e = l.length) ∧
              (mapGet p.2 d).getD [] = p.1.flatMap fun e => List.replicate (n e) (ident e) := by
  obtain ⟨sub, l1, hb⟩ := fileBehind x hx records hf
  refine ⟨sub, l1, fun o1 o2 o3 p1 p2 p3 => ?_⟩
  obtain ⟨E, e1, hE⟩ := enginesFor_new p1 p2 p3 (hb.nonempty p3 hne) fun k u h =>
    (hb.covered p3 (List.replicate 12 0#8) rfl k u h).1
  refine ⟨E, e1, ?_⟩
  intro flag ls s h hleg ms as rest batches ident hm ha hr0 hbytes heof hdec hid
  obtain ⟨ls', E0, h1, h2, h3, -⟩ := prog_refines hfl (code_names fl) (P := fun m => m ≠ .legacy) ⟨.list, by simp⟩ h
    fun m hm => by rintro rfl; exact hleg hm
  rw [← h2] at hbytes
  have hloop : llrpLoop env.headers (arrivedIn ls') = (as, .waiting rest) := by
    rw [hbytes, C60_aligned hd hm ha, waiting_short hr0]
    simp
  have hall : ∀ e ∈ batches.flatten, ∃ i, ReadEvent.Has e i := by
    intro e he
    obtain ⟨b, hb', he'⟩ := List.mem_flatten.mp he
    exact ⟨_, hid b hb' e he'⟩
  obtain ⟨taken, t1, t2, t3, -, y, t4⟩ := C90_in_order h1
  rw [hloop] at t1
  obtain ⟨more, rfl⟩ := t1
  have hpre : ({ s.fc with factory := E0 } : Fc Engines).batches <+: batches := by
    refine map_some_prefix (t3.trans ?_)
    rw [← hdec, reportBodies_append, List.map_append]
    exact List.prefix_append _ _
  have hdone : s.fc.done.map Prod.fst <+: batches := (List.prefix_append _ _).trans hpre
  refine ⟨?_, ?_, hdone, ?_⟩
  · by_contra hend
    rcases C90_why h1 hend with h' | ⟨n, h'⟩ | ⟨body, h', h''⟩ | ⟨bs, h', before, e, after, results, y, g1, g2, g3⟩
    · exact heof (h3.mp h')
    · rw [hloop] at h'; cases h'
    · rw [hloop] at h'
      have : none ∈ batches.map some := by
        rw [← hdec]; exact List.mem_map.mpr ⟨body, h', h''⟩
      obtain ⟨_, -, h0⟩ := List.mem_map.mp this
      cases h0
    · rw [hloop, hdec] at h'
      obtain ⟨more, rfl⟩ := map_some_prefix h'
      have hev : ∀ e' ∈ before ++ e :: after, ∃ i, ReadEvent.Has e' i := fun e' he' =>
        hall e' (by rw [List.flatten_append, g1]; exact List.mem_append_left _ he')
      obtain ⟨i, hi⟩ := hev e (by simp)
      obtain ⟨o, sel, -, g4⟩ := g3
      obtain ⟨_, _, h0, -⟩ := factory_search hb hf l1 hi g4
        (engines_answered hb hf l1 g2 (fun e' he' => hev e' (List.mem_append_left _ he')) hE)
      cases h0
  · rw [show s.fc.written = repliesTo 0#32 taken from t2]
    unfold repliesTo
    rw [List.filterMap_append]
    exact List.prefix_append _ _
  · exact collected_due hb hf l1 hn hfork hw (fun _ _ h => h) t4 hE fun p hp => hid p.1
      (hdone.subset (List.mem_map.mpr ⟨p, hp, rfl⟩))

/-- C92, at rest: every message has been answered and every batch collected. -/
theorem C92_program (hfl : fl.Lawful) (x : Binutil) (hx : x.Ok) (records : List (List Str)) (hf : FileOk records)
    (hne : ∃ u sc f, FileSubscribes records u sc f) (hn : NoRivals records) (hfork : FileNoForks records)
    (hw : NoWidest records) (hd : env.headers.Distinct) :
    ∃ sub, loadRecords records = some sub ∧ ∀ o1 o2 o3 : Subs, o1.Perm sub → o2.Perm sub → o3.Perm sub →
      ∃ E, newEngines x.encoder sub o1 o2 o3 = some E ∧
      ∀ {flag : Option Int} {ls : List ProgLabel} {s : Prog F},
        ProgRun env (Config.code fl) translate (progStart (Config.code fl) sub E flag) ls s →
        EngineName.legacy.text ∉ s.chosen → s.AtRest env (Config.code fl) translate →
        ∀ {ms : List LlrpMessage} {as : List LlrpAction} {rest : List Byte} {batches : List (List ReadEvent)}
          {ident : ReadEvent → Str},
        (∀ m ∈ ms, m.Fits) → Answers env.headers ms as → readMessage rest = none →
        arrivedIn (fcMoves ls) = ms.flatMap LlrpMessage.wire ++ rest → .eof ∉ fcMoves ls →
        (reportBodies as).map env.decode = batches.map some →
        (∀ b ∈ batches, ∀ e ∈ b, ReadEvent.Has e (ident e)) →
        s.fc.ended = none ∧ s.fc.written = repliesTo 0#32 as ∧ s.fc.done.map Prod.fst = batches ∧
          (∀ p ∈ s.fc.done, ∀ d, (mapGet p.2 d = none ↔ ∀ e ∈ p.1, ¬ Due records e.2 d) ∧
            ∃ n : ReadEvent → Nat, (∀ e ∈ p.1, ∃ l, DuePatterns records e.2 d l ∧ n e = l.length) ∧
              (mapGet p.2 d).getD [] = p.1.flatMap fun e => List.replicate (n e) (ident e)) ∧
          World.AtRest (Config.code fl) s.world := by
  obtain ⟨sub, l1, l2⟩ := C91_program x hx records hf hne hn hfork hw hd (can := fun _ m => m ≠ .legacy)
    (fun _ _ h => h) ⟨[], .list, by simp⟩
  refine ⟨sub, l1, fun o1 o2 o3 p1 p2 p3 => ?_⟩
  obtain ⟨E, e1, l3⟩ := l2 o1 o2 o3 p1 p2 p3
  refine ⟨E, e1, ?_⟩
  intro flag ls s h hleg hrest ms as rest batches ident hm ha hr0 hbytes heof hdec hid
  obtain ⟨ls', E0, h1, h2, h3, h4⟩ := prog_refines hfl (code_names fl) (P := fun m => m ≠ .legacy) ⟨.list, by simp⟩ h
    fun m hm => by rintro rfl; exact hleg hm
  obtain ⟨k1, k2, k3⟩ := code_engines fl
  obtain ⟨g1, g2⟩ := prog_rest hfl (code_names fl) k1 k2 k3 h hrest h4
  obtain ⟨r1, r2, r3, r4⟩ := l3 h1 (g2 _) hm ha hr0 (h2 ▸ hbytes) (fun h' => heof (h3.mp h')) hdec hid
  exact ⟨r1, r2, r3, r4, g1 r1⟩

theorem due_reports {x : Binutil} {records : List (List Str)} {sub : Subs} (hb : FileBehind x records sub)
    {o : Subs} (ho : o.Perm sub) {id : List Byte} (hl : id.length = 12) {u : Str} (hdue : Due records id u)
    {uris : List Str} (h : ReportsInKeyOrder (toByteSubscriptions x.encoder o) id uris) : uris ≠ [] := by
  obtain ⟨sc, f, hsub, hhas⟩ := hdue
  obtain ⟨k, ek, -⟩ := encoder_carries x hb.ok sc f (wellFormed_encodable sc f hsub.1)
  obtain ⟨v, hv⟩ := mem_bytes_of_subscribes ((hb.subscribes ho u k).mpr ⟨sc, f, hsub, ek⟩)
  have hpre := ((encoder_prefix x hb.ok hsub.1 ek).2.2.2 id hl).mpr hhas
  obtain ⟨hits, -, h2, rfl⟩ := h
  exact List.ne_nil_of_mem (List.mem_map.mpr ⟨(k, v), (h2 k v).mpr ⟨hv, hpre⟩, rfl⟩)

/-- whichever engine searches for a tag that is due and whose translation panics, panics -/
theorem engine_kills {x : Binutil} {records : List (List Str)} {sub : Subs} (hb : FileBehind x records sub)
    (hn : FileNoForks records) (hw : NoWidest records) {E : Engines} (hE : EnginesFor x sub E) {e : ReadEvent}
    (hl : e.2.length = 12) {u : Str} (hdue : Due records e.2 u) (htr : translate e.1 e.2 = none) {n : EngineName}
    {r : Option (SearchResult × Engines)} (h : EngineSearch translate E e n r) : r = none := by
  have hid : e.2 ≠ [] := by intro h0; rw [h0] at hl; cases hl
  have fin : ∀ {uris : List Str}, uris ≠ [] → finishSearch translate e.1 e.2 uris = none := by
    intro uris h
    unfold finishSearch
    rw [if_neg (by simpa using h), htr]
  cases h with
  | legacy order _ => unfold legacySearch; rw [htr]; rfl
  | list =>
    obtain ⟨o, ho, eo⟩ := hE.list
    obtain ⟨us, h1, -, h3⟩ := C16_search x.encoder translate o e.1 e.2 (hb.covered ho e.2 hl)
    rw [eo, h3 (due_reports hb ho hl hdue h1), htr]
    rfl
  | patricia =>
    obtain ⟨o, ho, eo⟩ := hE.patricia
    obtain ⟨us, h1, h2⟩ := C18_search x.encoder translate o (fun p hp' => hb.uris p (ho.mem_iff.mp hp')) e.1 e.2 hid
      (hb.covered ho e.2 hl)
    have h1' : ReportsInKeyOrder (toByteSubscriptions x.encoder o) e.2 us := by
      obtain ⟨hits, a1, a2, a3⟩ := h1
      refine ⟨hits, a1, fun k u => ?_, a3⟩
      rw [a2, List.mem_filter, decide_eq_true_iff]
      exact ⟨fun h => ⟨h.1.1, h.2⟩, fun h => ⟨⟨h.1, hb.noRoot ho hw h.1⟩, h.2⟩⟩
    rw [eo, h2, fin (due_reports hb ho hl hdue h1')]
    rfl
  | splay =>
    obtain ⟨us, t', h1, -, h3⟩ := hb.splay_search hE e.2 hl
    obtain ⟨o, ho, h4⟩ := h3 hn
    unfold SNode.searchEngine
    rw [h1]
    dsimp only
    rw [fin (due_reports hb ho hl hdue h4)]
    rfl

theorem kills_unanswered {x : Binutil} {records : List (List Str)} {sub : Subs} (hb : FileBehind x records sub)
    (hf : FileOk records) (hload : loadRecords records = some sub) (hn : FileNoForks records) (hw : NoWidest records)
    {can : List EngineName → EngineName → Prop} {E E' : Engines} {events : List ReadEvent}
    {results : List SearchResult} (h : Answered (enginesAnswer translate can) E events results E')
    (hE : EnginesFor x sub E) (he : ∀ e ∈ events, (∃ i, ReadEvent.Has e i) ∨ Kills records e) :
    ∀ e ∈ events, ¬ Kills records e := by
  induction h with
  | nil => intro e he; cases he
  | @cons _ _ _ e r es rs h _ ih =>
    obtain ⟨o, sel, -, h⟩ := h
    have hk : ¬ Kills records e := by
      rintro ⟨k1, ⟨u, k2⟩, k3⟩
      have first : ∀ {n q} {E' : Engines}, ¬ EngineSearch translate _ e n (some (q, E')) := fun h => by
        cases engine_kills hb hn hw hE k1 k2 k3 h
      cases h with
      | selected h => exact first h
      | other h => exact first h
    obtain ⟨i, hi⟩ := (he e List.mem_cons_self).resolve_right hk
    obtain ⟨q, E1, h1, h2, -⟩ := factory_search hb hf hload hi h hE
    cases h1
    have rest := ih h2 fun e he' => he e (List.mem_cons_of_mem _ he')
    intro e' he'
    rcases List.mem_cons.mp he' with rfl | he'
    · exact hk
    · exact rest e' he'

/-- C92: one tag that is due and whose translation panics, and the program cannot rest without having ended,
    whichever engines are selected, the legacy engine or others, and whatever comes before and after it. -/
theorem C92_killer (hfl : fl.Lawful) (x : Binutil) (hx : x.Ok) (records : List (List Str)) (hf : FileOk records)
    (hne : ∃ u sc f, FileSubscribes records u sc f) (hfork : FileNoForks records) (hw : NoWidest records) :
    ∃ sub, loadRecords records = some sub ∧ ∀ o1 o2 o3 : Subs, o1.Perm sub → o2.Perm sub → o3.Perm sub →
      ∃ E, newEngines x.encoder sub o1 o2 o3 = some E ∧
      ∀ {flag : Option Int} {ls : List ProgLabel} {s : Prog F},
        ProgRun env (Config.code fl) translate (progStart (Config.code fl) sub E flag) ls s →
        s.AtRest env (Config.code fl) translate →
        (∀ body ∈ reportBodies (llrpLoop env.headers (arrivedIn (fcMoves ls))).1, ∀ batch,
          env.decode body = some batch → ∀ e ∈ batch, (∃ i, ReadEvent.Has e i) ∨ Kills records e) →
        ∀ {body : List Byte} {batch : List ReadEvent} {e : ReadEvent},
          body ∈ reportBodies (llrpLoop env.headers (arrivedIn (fcMoves ls))).1 → env.decode body = some batch →
          e ∈ batch → Kills records e → s.fc.ended ≠ none := by
  obtain ⟨sub, l1, hb⟩ := fileBehind x hx records hf
  refine ⟨sub, l1, fun o1 o2 o3 p1 p2 p3 => ?_⟩
  obtain ⟨E, e1, hE⟩ := enginesFor_new p1 p2 p3 (hb.nonempty p3 hne) fun k u h =>
    (hb.covered p3 (List.replicate 12 0#8) rfl k u h).1
  refine ⟨E, e1, ?_⟩
  intro flag ls s h hrest hev body batch e hbody hdec he hk hend
  obtain ⟨ls', E0, h1, h2, h3, h4⟩ := prog_refines hfl (code_names fl) (P := fun _ => True) ⟨.list, trivial⟩ h
    fun _ _ => trivial
  obtain ⟨k1, k2, k3⟩ := code_engines fl
  obtain ⟨-, g2⟩ := prog_rest hfl (code_names fl) k1 k2 k3 h hrest h4
  rw [← h2] at hev hbody
  obtain ⟨taken, hi⟩ := fcInv_run h1
  obtain ⟨c, i1, i2⟩ := hi.consumed
  have e' := i2 s.fc.pending
  obtain ⟨r1, r2, r3⟩ := rest_idle (g2 fun _ _ => True) hend fun _ e _ _ _ => by
    obtain ⟨r, hr⟩ := factorySearch_total translate e .list [] E0
    exact ⟨r, [], .list, trivial, hr⟩
  rw [show arrivedIn ls' = c ++ s.fc.pending from i1] at hev hbody
  rw [waiting_short r3, List.append_nil] at e'
  rw [e'] at hev hbody
  have hall := hi.all (by rw [hend]; simp)
  have hbs : ({ s.fc with factory := E0 } : Fc Engines).batches = s.fc.done.map Prod.fst := by
    unfold Fc.batches Fc.underWay
    rw [r1, r2]
    simp
  rw [hbs] at hall
  have mem : ∀ b, b ∈ s.fc.done.map Prod.fst ↔ ∃ body ∈ reportBodies taken, env.decode body = some b := by
    intro b
    have : some b ∈ (s.fc.done.map Prod.fst).map some ↔ some b ∈ (reportBodies taken).map env.decode := by rw [hall]
    rw [List.mem_map, List.mem_map] at this
    rw [← this]
    exact ⟨fun h => ⟨b, h, rfl⟩, fun ⟨b', h, e⟩ => by cases e; exact h⟩
  obtain ⟨y, d1, -⟩ := hi.done
  obtain ⟨results, d2⟩ := collected_answered d1
  refine kills_unanswered hb hf l1 hfork hw d2 hE ?_ e
    (List.mem_flatten.mpr ⟨batch, (mem batch).mpr ⟨body, hbody, hdec⟩, he⟩) hk
  intro e hm
  obtain ⟨b, hb1, hb2⟩ := List.mem_flatten.mp hm
  obtain ⟨body, hb3, hb4⟩ := (mem b).mp hb1
  exact hev body hb3 b hb4 e hb2

/-! ## Cases -/

private def twoFile : List (List Str) :=
  [["http://a".toList, "urn:epc:pat:sgtin-96:3.0614141.812345".toList],
   ["http://b".toList, "urn:epc:pat:sgtin-96:3.0614141.812346".toList]]
private def tagA : List Byte := [48#8, 116#8, 37#8, 123#8, 247#8, 25#8, 78#8, 64#8, 0#8, 0#8, 26#8, 133#8]
private def tagB : List Byte := [48#8, 116#8, 37#8, 123#8, 247#8, 25#8, 78#8, 128#8, 0#8, 0#8, 26#8, 133#8]
private def pureA : Str := "urn:epc:id:sgtin:0614141.812345.6789".toList
private def pureB : Str := "urn:epc:id:sgtin:0614141.812346.6789".toList

/-- reports with two tags of 96 bits -/
private def sampleEnv : FcEnv :=
  ⟨someHeaders, fun body => some [([48#8, 0#8], body.take 12), ([48#8, 0#8], body.drop 12)]⟩

private def stream : List Byte :=
  (⟨0x043F, 7, [2]⟩ : LlrpMessage).wire ++ (⟨0x043D, 9, tagA ++ tagB⟩ : LlrpMessage).wire

private def begin? (records : List (List Str)) : Option (Prog (Nat × Nat)) :=
  (loadRecords records).bind fun sub => (newEngines sampleBinutil.encoder sub sub sub sub).map fun E =>
    progStart exactCode sub E none

private def asides (ls : List Label) : List ProgOrder := ls.map .factory

/-- the search for the first tag begins with the list engine selected, and while it goes on the trie is announced
    and selected; the search for the second tag goes through both -/
private def twoSearches : List ProgOrder :=
  asides listReady ++ [.fc (.arrive stream), .fc .read, .fc .read, .fc .hand, .factory (.search codeNames)] ++
  asides [.searchNext, .searchNext, .searchNext, .searchNext, .searchNext] ++ asides trieReady ++
  [.engine .list, .factory .readMatched, .factory .writeMatched, .ret 1000, .factory (.search codeNames),
    .factory .searchNext, .engine .list, .factory .readMatched, .factory .writeMatched, .factory (.track 1000),
    .factory .searchNext, .factory .searchNext, .factory .searchNext, .factory .searchNext,
    .engine .patricia, .factory .readMatched, .factory .writeMatched, .ret 1000, .fc .finish] ++
  asides (allReady.drop (listReady ++ trieReady).length)

-- test: what that run does
example : ((begin? twoFile).bind fun s => (progExecs sampleEnv exactCode translate s twoSearches).map
    fun p => decide (p.2.chosen = ["List".toList, "PatriciaTrie".toList]) &&
      decide (p.2.fc.written = [.setReaderConfig 0#32]) && decide (p.2.fc.done.map Prod.snd =
        [[("http://a".toList, [pureA]), ("http://b".toList, [pureB])]]) && decide (p.2.fc.ended = none) &&
      decide (arrivedIn (fcMoves p.1) = stream)) = some true := by decide +kernel

-- test: it is a run of the program, and it ends at rest
example : ∃ sub E ls s, loadRecords twoFile = some sub ∧
    newEngines sampleBinutil.encoder sub sub sub sub = some E ∧
    ProgRun sampleEnv exactCode translate (progStart exactCode sub E none) ls s ∧
    s.chosen = ["List".toList, "PatriciaTrie".toList] ∧ EngineName.legacy.text ∉ s.chosen ∧
    s.AtRest sampleEnv exactCode translate ∧ s.fc.ended = none := by
  have hrest : ((begin? twoFile).bind fun s => (progExecs sampleEnv exactCode translate s twoSearches).map fun p =>
      decide (p.2.chosen = ["List".toList, "PatriciaTrie".toList]) && decide (p.2.fc.ended = none) &&
      decide (p.2.fc.main = .reading) && decide (p.2.fc.listener = .waiting) &&
      (readMessage p.2.fc.pending).isNone &&
      (decide (p.2.world.listener = .idle) && decide (p.2.world.selector = .idle) &&
        decide (p.2.world.searcher = .idle) && decide (p.2.world.queue = []) && exactCode.names.all fun n =>
          decide ((p.2.world.gens n).builder = .done) && decide ((p.2.world.gens n).monitor = .waiting))) =
      some true := by decide +kernel
  obtain ⟨s0, hs0, hrest⟩ := Option.bind_eq_some_iff.mp hrest
  unfold begin? at hs0
  obtain ⟨sub, hsub, hs0⟩ := Option.bind_eq_some_iff.mp hs0
  obtain ⟨E, hE, rfl⟩ := Option.map_eq_some_iff.mp hs0
  obtain ⟨⟨ls, s⟩, hx, he⟩ := Option.map_eq_some_iff.mp hrest
  simp only [Bool.and_eq_true, decide_eq_true_eq, List.all_eq_true, Option.isNone_iff_eq_none] at he
  obtain ⟨⟨⟨⟨⟨e1, e2⟩, e3⟩, e4⟩, e5⟩, ⟨⟨⟨e6, e7⟩, e8⟩, e9⟩, e10⟩ := he
  have hrun := progExecs_sound _ (.nil _) hx
  refine ⟨sub, E, _, s, hsub, hE, hrun, e1, by rw [e1]; decide +kernel, ?_, e2⟩
  exact (C92_rest quotients_lawful hrun e2).mpr
    ⟨⟨e6, e7, e8, e9, fun n hn => (e10 n hn).1, fun n hn => (e10 n hn).2⟩, e3, e4, e5⟩

-- test: a tag that C92_killer speaks of, and how it ends the program: the item reference has a digit too many
private def killerTag : List Byte := [0x30, 0x74, 0x25, 0x7B, 0xF7, 0xFF, 0xFF, 0xC0, 0x00, 0x00, 0x1A, 0x85]
private def tagC : List Byte := [0x30, 0x74, 0x25, 0x7B, 0xFB, 0x19, 0x4E, 0x40, 0x00, 0x00, 0x1A, 0x85]
private def killFile : List (List Str) :=
  [["http://a".toList, "urn:epc:pat:sgtin-96:3.0614141".toList],
   ["http://b".toList, "urn:epc:pat:sgtin-96:3.0614142".toList]]

private theorem kill_wf : Scheme.sgtin.WellFormed ["3".toList, "0614141".toList] ∧
    Scheme.sgtin.WellFormed ["3".toList, "0614142".toList] := by
  unfold Scheme.WellFormed; decide +kernel

private theorem kill_texts :
    "urn:epc:pat:sgtin-96:3.0614141".toList = Scheme.sgtin.patternText ["3".toList, "0614141".toList] ∧
    "urn:epc:pat:sgtin-96:3.0614142".toList = Scheme.sgtin.patternText ["3".toList, "0614142".toList] := by
  decide +kernel

private theorem kill_subscribes (u : Str) (sc : Scheme) (f : List Str) (h : FileSubscribes killFile u sc f) :
    (sc, f) = (.sgtin, ["3".toList, "0614141".toList]) ∨ (sc, f) = (.sgtin, ["3".toList, "0614142".toList]) := by
  obtain ⟨hw, -, r, hr, hu, hp⟩ := h
  unfold killFile at hr
  rw [List.mem_cons, List.mem_singleton] at hr
  rcases hr with rfl | rfl
  · rw [List.tail_cons, List.mem_singleton, kill_texts.1] at hp
    obtain ⟨rfl, rfl⟩ := patternText_inj hw kill_wf.1 hp
    exact Or.inl rfl
  · rw [List.tail_cons, List.mem_singleton, kill_texts.2] at hp
    obtain ⟨rfl, rfl⟩ := patternText_inj hw kill_wf.2 hp
    exact Or.inr rfl

private theorem kill_both : FileSubscribes killFile "http://a".toList .sgtin ["3".toList, "0614141".toList] ∧
    FileSubscribes killFile "http://b".toList .sgtin ["3".toList, "0614142".toList] :=
  ⟨⟨kill_wf.1, by decide +kernel, _, List.mem_cons_self, by decide +kernel, by decide +kernel⟩,
    ⟨kill_wf.2, by decide +kernel, _, List.mem_cons_of_mem _ List.mem_cons_self, by decide +kernel, by decide +kernel⟩⟩

private theorem kill_differ :
    ¬ TagsWithin .sgtin ["3".toList, "0614141".toList] .sgtin ["3".toList, "0614142".toList] ∧
    ¬ TagsWithin .sgtin ["3".toList, "0614142".toList] .sgtin ["3".toList, "0614141".toList] := by
  have ha : Scheme.sgtin.Has killerTag ["3".toList, "0614141".toList] ∧
      ¬ Scheme.sgtin.Has killerTag ["3".toList, "0614142".toList] := by
    unfold Scheme.Has; decide +kernel
  have hb : Scheme.sgtin.Has tagC ["3".toList, "0614142".toList] ∧
      ¬ Scheme.sgtin.Has tagC ["3".toList, "0614141".toList] := by
    unfold Scheme.Has; decide +kernel
  exact ⟨fun h => ha.2 (h _ rfl ha.1), fun h => hb.2 (h _ rfl hb.1)⟩

-- test: the conditions of C92_killer
example : FileOk killFile ∧ (∃ u sc f, FileSubscribes killFile u sc f) ∧ FileNoForks killFile ∧ NoWidest killFile ∧
    Kills killFile ([48#8, 0#8], killerTag) ∧ ∃ i, ReadEvent.Has ([48#8, 0#8], tagC) i := by
  refine ⟨?_, ⟨_, _, _, kill_both.1⟩, ?_, ?_, ⟨rfl, ⟨_, _, _, kill_both.1, ?_⟩, by decide +kernel⟩,
    "urn:epc:id:sgtin:0614142.812345.6789".toList, rfl, by decide +kernel⟩
  · intro r hr
    unfold killFile at hr
    rw [List.mem_cons, List.mem_singleton] at hr
    rcases hr with rfl | rfl
    · refine ⟨by simp, fun p hp _ => ?_⟩
      rw [List.tail_cons, List.mem_singleton] at hp
      exact ⟨.sgtin, _, kill_wf.1, by rw [hp]; exact kill_texts.1⟩
    · refine ⟨by simp, fun p hp _ => ?_⟩
      rw [List.tail_cons, List.mem_singleton] at hp
      exact ⟨.sgtin, _, kill_wf.2, by rw [hp]; exact kill_texts.2⟩
  · rintro u v w ⟨p1, p2⟩ ⟨a1, a2⟩ ⟨b1, b2⟩ hp ha hb h1 h2
    rcases kill_subscribes _ _ _ hp with e | e <;> rcases kill_subscribes _ _ _ ha with e1 | e1 <;>
      rcases kill_subscribes _ _ _ hb with e2 | e2 <;> cases e <;> cases e1 <;> cases e2
    · exact absurd h1.1 h1.2
    · exact absurd h1.1 h1.2
    · exact absurd h2.1 h2.2
    · exact Or.inl fun _ _ h => h
    · exact Or.inl fun _ _ h => h
    · exact absurd h2.1 h2.2
    · exact absurd h1.1 h1.2
    · exact absurd h1.1 h1.2
  · intro u sc f h
    rcases kill_subscribes u sc f h with e | e <;> cases e
    · exact ⟨_, _, _, kill_both.2, kill_differ.2⟩
    · exact ⟨_, _, _, kill_both.1, kill_differ.1⟩
  · unfold Scheme.Has; decide +kernel

-- test: the splay tree is selected and panics
example : ((begin? killFile).bind fun s => (progExecs sampleEnv exactCode translate s
    (asides (listReady.map fun l => match l with
      | .init _ => .init "SplayTree".toList
      | .build _ => .build "SplayTree".toList
      | .deploy _ => .deploy "SplayTree".toList
      | .recvGenerated _ => .recvGenerated "SplayTree".toList
      | l => l) ++ [.fc (.arrive (⟨0x043D, 9, tagC ++ killerTag⟩ : LlrpMessage).wire), .fc .read, .fc .hand,
        .factory (.search codeNames)] ++
      asides [.searchNext, .searchNext, .searchNext, .searchNext, .searchNext] ++
      [.engine .splay, .factory .readMatched, .factory .writeMatched, .ret 1000, .factory (.search codeNames)] ++
      asides [.searchNext, .searchNext, .searchNext, .searchNext, .searchNext] ++ [.engine .splay])).map
    fun p => decide (p.2.fc.ended = some .panic) && decide (p.2.fc.done = [])) = some true := by decide +kernel

end Gosstrak
