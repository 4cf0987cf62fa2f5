import Verif.Proofs.Engines
import Verif.Props.FcRun

/-! # C91: what the program reports by which engine is selected -/
namespace Gosstrak

variable {env : FcEnv}

/-- C91: the engines can be built from any file with at least one pattern, whatever the order in which each of
    them goes through the map. After any searches for tags of 96 bits with an identity, whichever engines were
    searched and selected, a search for such a tag never panics, whatever engines it goes through, and answers
    what the selected engine owes. -/
theorem C91_answers (x : Binutil) (hx : x.Ok) (records : List (List Str)) (hf : FileOk records)
    (hne : ∃ u sc f, FileSubscribes records u sc f) :
    ∃ sub, loadRecords records = some sub ∧ ∀ o1 o2 o3 : Subs, o1.Perm sub → o2.Perm sub → o3.Perm sub →
      ∃ E, newEngines x.encoder sub o1 o2 o3 = some E ∧
        ∀ {can : List EngineName → EngineName → Prop} {events : List ReadEvent} {results : List SearchResult}
          {E' : Engines}, (∀ e ∈ events, ∃ ident, ReadEvent.Has e ident) →
          Answered (enginesAnswer translate can) E events results E' →
          ∀ {e : ReadEvent} {ident : Str}, e.Has ident → ∀ (others : List EngineName) (selected : EngineName),
            (∃ r, FactorySearch translate e selected E' others r) ∧
            ∀ r, FactorySearch translate e selected E' others r →
              ∃ q E'', r = some (q, E'') ∧ AnswersAs records e.2 ident q selected := by
  obtain ⟨sub, l1, hb⟩ := fileBehind x hx records hf
  refine ⟨sub, l1, fun o1 o2 o3 p1 p2 p3 => ?_⟩
  obtain ⟨E, e1, hE⟩ := enginesFor_new p1 p2 p3 (hb.nonempty p3 hne) fun k u h =>
    (hb.covered p3 (List.replicate 12 0#8) rfl k u h).1
  refine ⟨E, e1, fun he ha e ident hi others selected => ⟨factorySearch_total _ _ _ _ _, fun r hr => ?_⟩⟩
  obtain ⟨q, E'', g1, -, g2⟩ := factory_search hb hf l1 hi hr (engines_answered hb hf l1 ha he hE)
  exact ⟨q, E'', g1, g2⟩

section
variable {x : Binutil} {records : List (List Str)} {sub : Subs}

/-- the answer of the list engine, whatever the order, from any list of the URIs in the order of the keys -/
theorem FileBehind.list_finish (hb : FileBehind x records sub) (hr : NoRivals records)
    {o order : Subs} (ho : o.Perm sub) (hp : order.Perm sub) {e : ReadEvent} (hl : e.2.length = 12) {uris : List Str}
    (h : ReportsInKeyOrder (toByteSubscriptions x.encoder o) e.2 uris) :
    (newList x.encoder order).search translate e.1 e.2 = finishSearch translate e.1 e.2 uris := by
  have hex : ∀ {o : Subs}, o.Perm sub → ∀ k u, (k, u) ∈ toByteSubscriptions x.encoder o ↔
      ∃ sc f, FileSubscribes records u sc f ∧ x.encoder sc.typeName f = some k := by
    intro o ho k u
    rw [← hb.subscribes ho]
    refine (C11_exact x.encoder o o (List.Perm.refl _) fun k u v hu hv => ?_).2 k u
    obtain ⟨sc, f, a, b⟩ := (hb.subscribes ho u k).mp hu
    obtain ⟨sc', f', a', b'⟩ := (hb.subscribes ho v k).mp hv
    exact hr u v sc f sc' f' a a' (encoder_sameTags x hb.ok a.1 b a'.1 b')
  obtain ⟨us, h1, h2, h3⟩ := C16_search x.encoder translate order e.1 e.2 (hb.covered hp e.2 hl)
  obtain ⟨hits, a1, a2, rfl⟩ := h1
  obtain ⟨hits', b1, b2, rfl⟩ := h
  have : hits.map Prod.snd = hits'.map Prod.snd :=
    reportsFrom_unique (S := fun k u => ∃ sc f, FileSubscribes records u sc f ∧ x.encoder sc.typeName f = some k)
      ⟨hits, a1, fun k u => by rw [a2, hex hp], rfl⟩ ⟨hits', b1, fun k u => by rw [b2, hex ho], rfl⟩
  rw [← this]
  unfold finishSearch
  by_cases h0 : hits.map Prod.snd = []
  · rw [h2 h0, h0]; rfl
  · rw [h3 h0, if_neg (by simpa using h0)]
    cases translate e.1 e.2 with
    | none => rfl
    | some p => rfl

/-- on such a file three of the engines answer alike -/
theorem engine_agrees (hb : FileBehind x records sub) (hr : NoRivals records) (hn : FileNoForks records)
    (hw : NoWidest records) {order : Subs} (hp : order.Perm sub) {E : Engines} (hE : EnginesFor x sub E)
    {e : ReadEvent} {ident : Str} (he : e.Has ident) {n : EngineName} (hleg : n ≠ .legacy)
    {q : SearchResult} {E' : Engines} (h : EngineSearch translate E e n (some (q, E'))) :
    (newList x.encoder order).search translate e.1 e.2 = some q := by
  obtain ⟨hl, htr⟩ := he
  have hid : e.2 ≠ [] := by intro h0; rw [h0] at hl; cases hl
  generalize hres : some (q, E') = res at h
  cases h with
  | legacy => exact absurd rfl hleg
  | list =>
    obtain ⟨o, ho, eo⟩ := hE.list
    obtain ⟨us, h1, h2, h3⟩ := C16_search x.encoder translate o e.1 e.2 (hb.covered ho e.2 hl)
    rw [eo, hb.list_finish hr ho ho hl h1] at hres
    rw [hb.list_finish hr ho hp hl h1]
    cases hf : finishSearch translate e.1 e.2 us with
    | none => rw [hf] at hres; cases hres
    | some r => rw [hf] at hres; cases hres; rfl
  | patricia =>
    obtain ⟨o, ho, eo⟩ := hE.patricia
    obtain ⟨us, h1, h2⟩ := C18_search x.encoder translate o (fun p hp' => hb.uris p (ho.mem_iff.mp hp')) e.1 e.2 hid
      (hb.covered ho e.2 hl)
    have h1' : ReportsInKeyOrder (toByteSubscriptions x.encoder o) e.2 us := by
      obtain ⟨hits, a1, a2, a3⟩ := h1
      refine ⟨hits, a1, fun k u => ?_, a3⟩
      rw [a2, List.mem_filter, decide_eq_true_iff]
      exact ⟨fun h => ⟨h.1.1, h.2⟩, fun h => ⟨⟨h.1, hb.noRoot ho hw h.1⟩, h.2⟩⟩
    rw [eo, h2] at hres
    rw [hb.list_finish hr ho hp hl h1']
    cases hf : finishSearch translate e.1 e.2 us with
    | none => rw [hf] at hres; cases hres
    | some r => rw [hf] at hres; cases hres; rfl
  | splay =>
    obtain ⟨us, t', h1, -, h3⟩ := hb.splay_search hE e.2 hl
    obtain ⟨o, ho, h4⟩ := h3 hn
    unfold SNode.searchEngine at hres
    rw [h1] at hres
    rw [hb.list_finish hr ho hp hl h4]
    cases hf : finishSearch translate e.1 e.2 us with
    | none => dsimp only at hres; rw [hf] at hres; cases hres
    | some r => dsimp only at hres; rw [hf] at hres; cases hres; rfl

theorem factory_agrees (hb : FileBehind x records sub) (hf : FileOk records)
    (hload : loadRecords records = some sub) (hr : NoRivals records) (hn : FileNoForks records)
    (hw : NoWidest records) {order : Subs} (hp : order.Perm sub)
    {e : ReadEvent} {ident : Str} (he : e.Has ident) {sel : EngineName} (hleg : sel ≠ .legacy)
    {E : Engines} {others : List EngineName} {r : Option (SearchResult × Engines)}
    (h : FactorySearch translate e sel E others r) (hE : EnginesFor x sub E) :
    ∃ q E', r = some (q, E') ∧ (newList x.encoder order).search translate e.1 e.2 = some q := by
  induction h with
  | selected h =>
    obtain ⟨q, E', rfl, -⟩ := engine_search hb hf hload hE he h
    exact ⟨q, E', rfl, engine_agrees hb hr hn hw hp hE he hleg h⟩
  | other h _ ih =>
    obtain ⟨q, E', h1, h2, -⟩ := engine_search hb hf hload hE he h
    cases h1
    exact ih h2
  | panic h =>
    obtain ⟨q, E', h1, -⟩ := engine_search hb hf hload hE he h
    cases h1

theorem answered_agrees (hb : FileBehind x records sub) (hf : FileOk records)
    (hload : loadRecords records = some sub) (hr : NoRivals records) (hn : FileNoForks records)
    (hw : NoWidest records) {order : Subs} (hp : order.Perm sub)
    {can : List EngineName → EngineName → Prop} (hcan : ∀ o s, can o s → s ≠ .legacy)
    {events : List ReadEvent} {results : List SearchResult} {E E' : Engines}
    (h : Answered (enginesAnswer translate can) E events results E')
    (he : ∀ e ∈ events, ∃ ident, ReadEvent.Has e ident) (hE : EnginesFor x sub E) :
    events.mapM (fun e => (newList x.encoder order).search translate e.1 e.2) = some results := by
  induction h with
  | nil => rfl
  | cons h _ ih =>
    obtain ⟨others, sel, hc, h⟩ := h
    obtain ⟨ident, hi⟩ := he _ List.mem_cons_self
    obtain ⟨q, E1, h1, h2, -⟩ := factory_search hb hf hload hi h hE
    cases h1
    obtain ⟨q, E1, h1, h3⟩ := factory_agrees hb hf hload hr hn hw hp hi (hcan _ _ hc) h hE
    cases h1
    rw [List.mapM_cons, h3, ih (fun e he' => he e (List.mem_cons_of_mem _ he')) h2]
    rfl

end

/-- C91: on a file without rivals and forks, and without a pattern that selects every tag that any pattern
    selects, it does not matter which of the list, the trie and the splay tree is selected, in what order they
    were built and what was searched before: the answer is that of the list engine. -/
theorem C91_agree (x : Binutil) (hx : x.Ok) (records : List (List Str)) (hf : FileOk records)
    (hne : ∃ u sc f, FileSubscribes records u sc f) (hr : NoRivals records) (hn : FileNoForks records)
    (hw : NoWidest records) :
    ∃ sub, loadRecords records = some sub ∧ ∀ o1 o2 o3 order : Subs, o1.Perm sub → o2.Perm sub → o3.Perm sub →
      order.Perm sub → ∃ E, newEngines x.encoder sub o1 o2 o3 = some E ∧
        ∀ {can : List EngineName → EngineName → Prop} {events : List ReadEvent} {results : List SearchResult}
          {E' : Engines}, (∀ e ∈ events, ∃ ident, ReadEvent.Has e ident) →
          Answered (enginesAnswer translate can) E events results E' →
          ∀ {e : ReadEvent} {ident : Str}, e.Has ident → ∀ (others : List EngineName) (selected : EngineName),
            selected ≠ .legacy → ∀ r, FactorySearch translate e selected E' others r →
              ∃ q E'', r = some (q, E'') ∧ (newList x.encoder order).search translate e.1 e.2 = some q := by
  obtain ⟨sub, l1, hb⟩ := fileBehind x hx records hf
  refine ⟨sub, l1, fun o1 o2 o3 order p1 p2 p3 p4 => ?_⟩
  obtain ⟨E, e1, hE⟩ := enginesFor_new p1 p2 p3 (hb.nonempty p3 hne) fun k u h =>
    (hb.covered p3 (List.replicate 12 0#8) rfl k u h).1
  exact ⟨E, e1, fun he ha e ident hi others selected hs r h =>
    factory_agrees hb hf l1 hr hn hw p4 hi hs h (engines_answered hb hf l1 ha he hE)⟩

/-- what is collected of the answers on such a file -/
theorem collected_due {x : Binutil} {records : List (List Str)} {sub : Subs} (hb : FileBehind x records sub)
    (hf : FileOk records) (hload : loadRecords records = some sub) (hr : NoRivals records) (hn : FileNoForks records)
    (hw : NoWidest records) {can : List EngineName → EngineName → Prop} (hcan : ∀ o s, can o s → s ≠ .legacy)
    {E E' : Engines} {l : List (List ReadEvent × List (Str × List Str))}
    (hc : Collected (enginesAnswer translate can) E l E') (hE : EnginesFor x sub E) {ident : ReadEvent → Str}
    (hid : ∀ p ∈ l, ∀ e ∈ p.1, ReadEvent.Has e (ident e)) :
    ∀ p ∈ l, ∀ d, (mapGet p.2 d = none ↔ ∀ e ∈ p.1, ¬ Due records e.2 d) ∧
      ∃ n : ReadEvent → Nat, (∀ e ∈ p.1, ∃ l, DuePatterns records e.2 d l ∧ n e = l.length) ∧
        (mapGet p.2 d).getD [] = p.1.flatMap fun e => List.replicate (n e) (ident e) := by
  obtain ⟨sub', l1, l2⟩ := C89_batch x hb.ok records hf hr
  rw [hload] at l1
  cases l1
  have key : ∀ p ∈ l, ∃ results,
      p.1.mapM (fun e => (newList x.encoder sub).search translate e.1 e.2) = some results ∧
        p.2 = collectReports results := by
    induction hc with
    | nil => intro p hp; cases hp
    | cons h _ ih =>
      intro p hp
      have hev : ∀ e ∈ _, ∃ i, ReadEvent.Has e i := fun e he => ⟨_, hid _ List.mem_cons_self e he⟩
      rcases List.mem_cons.mp hp with rfl | hp
      · exact ⟨_, answered_agrees hb hf hload hr hn hw (List.Perm.refl _) hcan h hev hE, rfl⟩
      · exact ih (engines_answered hb hf hload h hev hE) (fun p hp => hid p (List.mem_cons_of_mem _ hp)) p hp
  intro p hp
  obtain ⟨results, g1, g2⟩ := key p hp
  obtain ⟨results', q1, q2⟩ := l2 sub (List.Perm.refl _) p.1 ident (hid p hp)
  rw [g1] at q1
  cases q1
  rw [g2]
  exact q2

/-- C91: the whole program on such a file, with the engines selected anew at any moment: at rest every batch
    has been collected, and each destination has the identities of the tags due to it. -/
theorem C91_program (x : Binutil) (hx : x.Ok) (records : List (List Str)) (hf : FileOk records)
    (hne : ∃ u sc f, FileSubscribes records u sc f) (hn : NoRivals records) (hfork : FileNoForks records)
    (hw : NoWidest records) (hd : env.headers.Distinct) {can : List EngineName → EngineName → Prop}
    (hcan : ∀ o s, can o s → s ≠ .legacy) (hsome : ∃ o s, can o s) :
    ∃ sub, loadRecords records = some sub ∧ ∀ o1 o2 o3 : Subs, o1.Perm sub → o2.Perm sub → o3.Perm sub →
      ∃ E, newEngines x.encoder sub o1 o2 o3 = some E ∧
      ∀ {flag : Option Int} {ls : List FcLabel} {s : Fc Engines},
        FcRun env (enginesAnswer translate can) (fcStart E flag) ls s → s.AtRest env (enginesAnswer translate can) →
        ∀ {ms : List LlrpMessage} {as : List LlrpAction} {rest : List Byte} {batches : List (List ReadEvent)}
          {ident : ReadEvent → Str},
        (∀ m ∈ ms, m.Fits) → Answers env.headers ms as → readMessage rest = none →
        arrivedIn ls = ms.flatMap LlrpMessage.wire ++ rest → .eof ∉ ls →
        (reportBodies as).map env.decode = batches.map some →
        (∀ b ∈ batches, ∀ e ∈ b, ReadEvent.Has e (ident e)) →
        s.ended = none ∧ s.written = repliesTo 0#32 as ∧ s.done.map Prod.fst = batches ∧
          ∀ p ∈ s.done, ∀ d, (mapGet p.2 d = none ↔ ∀ e ∈ p.1, ¬ Due records e.2 d) ∧
            ∃ n : ReadEvent → Nat, (∀ e ∈ p.1, ∃ l, DuePatterns records e.2 d l ∧ n e = l.length) ∧
              (mapGet p.2 d).getD [] = p.1.flatMap fun e => List.replicate (n e) (ident e) := by
  obtain ⟨sub, l1, hb⟩ := fileBehind x hx records hf
  refine ⟨sub, l1, fun o1 o2 o3 p1 p2 p3 => ?_⟩
  obtain ⟨E, e1, hE⟩ := enginesFor_new p1 p2 p3 (hb.nonempty p3 hne) fun k u h =>
    (hb.covered p3 (List.replicate 12 0#8) rfl k u h).1
  refine ⟨E, e1, ?_⟩
  intro flag ls s h hrest ms as rest batches ident hm ha hr0 hbytes heof hdec hid
  have hall : ∀ e ∈ batches.flatten, ∃ i, ReadEvent.Has e i := by
    intro e he
    obtain ⟨b, hb', he'⟩ := List.mem_flatten.mp he
    exact ⟨_, hid b hb' e he'⟩
  obtain ⟨r1, -, -, -, r2, r3, r4⟩ := C90_messages h hd hm ha hr0 hbytes heof hdec (by
    intro before e after results y he hA
    have hmem : ∀ e' ∈ before ++ e :: after, ∃ i, ReadEvent.Has e' i := he ▸ hall
    have hy := engines_answered hb hf l1 hA (fun e' h' => hmem e' (List.mem_append_left _ h')) hE
    obtain ⟨i, hi⟩ := hmem e (by simp)
    refine ⟨fun hno => ?_, ?_⟩
    · obtain ⟨o, sel, -, hs⟩ := hno
      obtain ⟨_, _, h0, -⟩ := factory_search hb hf l1 hi hs hy
      cases h0
    · obtain ⟨o, sel, hc⟩ := hsome
      obtain ⟨r, hs⟩ := factorySearch_total translate e sel o y
      obtain ⟨q, E', rfl, -⟩ := factory_search hb hf l1 hi hs hy
      exact ⟨_, o, sel, hc, hs⟩) hrest
  refine ⟨r1, r2, r3, collected_due hb hf l1 hn hfork hw hcan r4 hE fun p hp => hid p.1 ?_⟩
  rw [← r3]
  exact List.mem_map.mpr ⟨p, hp, rfl⟩

/-- a search through the legacy engine of a tag whose translation panics -/
theorem factory_panics {tr : Translator} {e : ReadEvent} (htr : tr e.1 e.2 = none) {sel : EngineName} {E : Engines}
    {others : List EngineName} {r : Option (SearchResult × Engines)} (h : FactorySearch tr e sel E others r)
    (hl : EngineName.legacy ∈ sel :: others) : r = none := by
  have leg : ∀ {E : Engines} {r : Option (SearchResult × Engines)}, EngineSearch tr E e .legacy r → r = none := by
    intro E r h
    generalize hn : EngineName.legacy = n at h
    cases h with
    | legacy order _ => unfold legacySearch; rw [htr]; rfl
    | list => cases hn
    | patricia => cases hn
    | splay => cases hn
  induction h with
  | selected h =>
    rw [List.mem_singleton] at hl
    exact leg (hl ▸ h)
  | @other _ _ n _ _ _ h _ ih =>
    refine ih ?_
    rcases List.mem_cons.mp hl with h0 | h0
    · exact h0 ▸ List.mem_cons_self
    · rcases List.mem_cons.mp h0 with h0 | h0
      · subst h0; cases leg h
      · exact List.mem_cons_of_mem _ h0
  | panic => rfl

/-- C91: as long as the legacy engine is among those searched, one tag whose translation panics ends the program,
    whichever engine is selected and whether or not the tag is due to anyone. -/
theorem C91_killer {can : List EngineName → EngineName → Prop} (hsome : ∃ o s, can o s)
    (hleg : ∀ o s, can o s → EngineName.legacy ∈ s :: o) (E : Engines) {flag : Option Int} {ls : List FcLabel}
    {s : Fc Engines} (h : FcRun env (enginesAnswer translate can) (fcStart E flag) ls s)
    (hr : s.AtRest env (enginesAnswer translate can)) {body : List Byte} {batch : List ReadEvent} {e : ReadEvent}
    (hbody : body ∈ reportBodies (llrpLoop env.headers (arrivedIn ls)).1) (hdec : env.decode body = some batch)
    (he : e ∈ batch) (htr : translate e.1 e.2 = none) : s.ended ≠ none := by
  refine C90_ends h (fun E e => ?_) (Or.inr (Or.inr ⟨body, hbody, batch, hdec, e, he, fun E' r hs => ?_⟩)) hr
  · obtain ⟨o, sel, hc⟩ := hsome
    obtain ⟨r, h⟩ := factorySearch_total translate e sel o E
    exact ⟨r, o, sel, hc, h⟩
  · obtain ⟨o, sel, hc, h⟩ := hs
    cases factory_panics htr h (hleg _ _ hc)

/-! ## Cases -/

private def oneFile : List (List Str) := [["http://a".toList, "urn:epc:pat:sgtin-96:3.0614141".toList]]
private def tagA : ReadEvent :=
  ([48#8, 0#8], [48#8, 116#8, 37#8, 123#8, 247#8, 25#8, 78#8, 64#8, 0#8, 0#8, 26#8, 133#8])
/-- same tag with filter value 2 -/
private def tagA2 : ReadEvent :=
  ([48#8, 0#8], [48#8, 84#8, 37#8, 123#8, 247#8, 25#8, 78#8, 64#8, 0#8, 0#8, 26#8, 133#8])
private def identA : Str := "urn:epc:id:sgtin:0614141.812345.6789".toList

private theorem one_wf : Scheme.sgtin.WellFormed ["3".toList, "0614141".toList] := by
  unfold Scheme.WellFormed; decide +kernel

/-- C91: a file with one pattern and two tags for which the answer depends on which engine is selected: the one
    tag is due, and the trie reports it to nobody; the other one is not, and the legacy engine reports it. -/
theorem C91_depends : ∃ (records : List (List Str)) (sub : Subs) (E : Engines) (e e' : ReadEvent) (i i' u : Str),
    FileOk records ∧ loadRecords records = some sub ∧ newEngines sampleBinutil.encoder sub sub sub sub = some E ∧
    e.Has i ∧ Due records e.2 u ∧ e'.Has i' ∧ (∀ v, ¬ Due records e'.2 v) ∧
    FactorySearch translate e .list E [] (some (⟨i, [u], false⟩, E)) ∧
    FactorySearch translate e .patricia E [] (some (⟨[], [], true⟩, E)) ∧
    FactorySearch translate e' .list E [] (some (⟨[], [], true⟩, E)) ∧
    FactorySearch translate e' .legacy E [] (some (⟨i', [u], false⟩, E)) := by
  have e1 : "urn:epc:pat:sgtin-96:3.0614141".toList = Scheme.sgtin.patternText ["3".toList, "0614141".toList] := by
    decide +kernel
  have hf : FileOk oneFile := by
    intro r hr
    unfold oneFile at hr
    rw [List.mem_singleton] at hr
    subst hr
    refine ⟨by simp, fun p hp _ => ?_⟩
    rw [List.tail_cons, List.mem_singleton] at hp
    exact ⟨.sgtin, _, one_wf, by rw [hp, e1]⟩
  have hs : FileSubscribes oneFile "http://a".toList .sgtin ["3".toList, "0614141".toList] :=
    ⟨one_wf, by decide +kernel, _, List.mem_singleton.mpr rfl, by decide +kernel, by decide +kernel⟩
  obtain ⟨sub, l1, l2⟩ := C91_answers sampleBinutil sampleBinutil_ok oneFile hf ⟨_, _, _, hs⟩
  obtain ⟨E, e2, -⟩ := l2 sub sub sub (List.Perm.refl _) (List.Perm.refl _) (List.Perm.refl _)
  have hsub : sub = [("http://a".toList, ["urn:epc:pat:sgtin-96:3.0614141".toList])] := by
    have : loadRecords oneFile = some [("http://a".toList, ["urn:epc:pat:sgtin-96:3.0614141".toList])] := by
      decide +kernel
    rw [l1] at this
    exact Option.some.inj this
  have hE : E.legacy = sub ∧ E.list = newList sampleBinutil.encoder sub ∧
      E.patricia = newPatricia sampleBinutil.encoder sub := by
    unfold newEngines at e2
    cases ht : newSplay sampleBinutil.encoder sub with
    | none => rw [ht] at e2; cases e2
    | some t => rw [ht] at e2; cases e2; exact ⟨rfl, rfl, rfl⟩
  have step : ∀ {e : ReadEvent} {n : EngineName} {r r' : Option (SearchResult × Engines)},
      EngineSearch translate E e n r → r = r' → FactorySearch translate e n E [] r' :=
    fun h he => .selected (he ▸ h)
  refine ⟨oneFile, sub, E, tagA, tagA2, identA, identA, "http://a".toList, hf, l1, e2, ⟨rfl, by decide +kernel⟩,
    ⟨_, _, hs, ?_⟩, ⟨rfl, by decide +kernel⟩, ?_, step .list ?_, step .patricia ?_, step .list ?_,
    step (.legacy E.legacy (List.Perm.refl _)) ?_⟩
  · unfold Scheme.Has; decide +kernel
  · rintro v ⟨sc, f, ⟨hw, -, r, hr, -, hp⟩, hh⟩
    unfold oneFile at hr
    rw [List.mem_singleton] at hr
    subst hr
    rw [List.tail_cons, List.mem_singleton, e1] at hp
    obtain ⟨rfl, rfl⟩ := patternText_inj hw one_wf hp
    revert hh
    unfold Scheme.Has; decide +kernel
  · rw [hE.2.1, hsub, show (newList sampleBinutil.encoder [("http://a".toList,
      ["urn:epc:pat:sgtin-96:3.0614141".toList])]).search translate tagA.1 tagA.2 =
      some ⟨identA, ["http://a".toList], false⟩ from by decide +kernel]
    rfl
  · rw [hE.2.2, hsub, show (newPatricia sampleBinutil.encoder [("http://a".toList,
      ["urn:epc:pat:sgtin-96:3.0614141".toList])]).searchEngine translate tagA.1 tagA.2 =
      some ⟨[], [], true⟩ from by decide +kernel]
    rfl
  · rw [hE.2.1, hsub, show (newList sampleBinutil.encoder [("http://a".toList,
      ["urn:epc:pat:sgtin-96:3.0614141".toList])]).search translate tagA2.1 tagA2.2 =
      some ⟨[], [], true⟩ from by decide +kernel]
    rfl
  · rw [hE.1, hsub, show legacySearch translate [("http://a".toList,
      ["urn:epc:pat:sgtin-96:3.0614141".toList])] tagA2.1 tagA2.2 =
      some ⟨identA, ["http://a".toList], false⟩ from by decide +kernel]
    rfl

-- test: a file that meets all conditions of C91_agree
private def twoFile : List (List Str) :=
  [["http://a".toList, "urn:epc:pat:sgtin-96:3.0614141.812345".toList],
   ["http://b".toList, "urn:epc:pat:sgtin-96:3.0614141.812346".toList]]
private def tagB : List Byte :=
  [48#8, 116#8, 37#8, 123#8, 247#8, 25#8, 78#8, 128#8, 0#8, 0#8, 26#8, 133#8]

private theorem two_wf : Scheme.sgtin.WellFormed ["3".toList, "0614141".toList, "812345".toList] ∧
    Scheme.sgtin.WellFormed ["3".toList, "0614141".toList, "812346".toList] := by
  unfold Scheme.WellFormed; decide +kernel

private theorem two_subscribes (u : Str) (sc : Scheme) (f : List Str) (h : FileSubscribes twoFile u sc f) :
    (u = "http://a".toList ∧ sc = .sgtin ∧ f = ["3".toList, "0614141".toList, "812345".toList]) ∨
    (u = "http://b".toList ∧ sc = .sgtin ∧ f = ["3".toList, "0614141".toList, "812346".toList]) := by
  obtain ⟨hw, -, r, hr, hu, hp⟩ := h
  have e1 : "urn:epc:pat:sgtin-96:3.0614141.812345".toList =
      Scheme.sgtin.patternText ["3".toList, "0614141".toList, "812345".toList] := by decide +kernel
  have e2 : "urn:epc:pat:sgtin-96:3.0614141.812346".toList =
      Scheme.sgtin.patternText ["3".toList, "0614141".toList, "812346".toList] := by decide +kernel
  unfold twoFile at hr
  rw [List.mem_cons, List.mem_singleton] at hr
  rcases hr with rfl | rfl
  · left
    rw [List.tail_cons, List.mem_singleton, e1] at hp
    obtain ⟨rfl, rfl⟩ := patternText_inj hw two_wf.1 hp
    refine ⟨?_, rfl, rfl⟩
    rw [show Option.map toLower ["http://a".toList, "urn:epc:pat:sgtin-96:3.0614141.812345".toList].head? =
      some "http://a".toList from by decide +kernel] at hu
    exact (Option.some.inj hu).symm
  · right
    rw [List.tail_cons, List.mem_singleton, e2] at hp
    obtain ⟨rfl, rfl⟩ := patternText_inj hw two_wf.2 hp
    refine ⟨?_, rfl, rfl⟩
    rw [show Option.map toLower ["http://b".toList, "urn:epc:pat:sgtin-96:3.0614141.812346".toList].head? =
      some "http://b".toList from by decide +kernel] at hu
    exact (Option.some.inj hu).symm

private theorem two_differ : ¬ TagsWithin .sgtin ["3".toList, "0614141".toList, "812345".toList]
      .sgtin ["3".toList, "0614141".toList, "812346".toList] ∧
    ¬ TagsWithin .sgtin ["3".toList, "0614141".toList, "812346".toList]
      .sgtin ["3".toList, "0614141".toList, "812345".toList] := by
  have ha : Scheme.sgtin.Has tagA.2 ["3".toList, "0614141".toList, "812345".toList] ∧
      ¬ Scheme.sgtin.Has tagA.2 ["3".toList, "0614141".toList, "812346".toList] := by
    unfold Scheme.Has; decide +kernel
  have hb : Scheme.sgtin.Has tagB ["3".toList, "0614141".toList, "812346".toList] ∧
      ¬ Scheme.sgtin.Has tagB ["3".toList, "0614141".toList, "812345".toList] := by
    unfold Scheme.Has; decide +kernel
  exact ⟨fun h => ha.2 (h _ rfl ha.1), fun h => hb.2 (h _ rfl hb.1)⟩

private theorem two_both : FileSubscribes twoFile "http://a".toList .sgtin
      ["3".toList, "0614141".toList, "812345".toList] ∧
    FileSubscribes twoFile "http://b".toList .sgtin ["3".toList, "0614141".toList, "812346".toList] :=
  ⟨⟨two_wf.1, by decide +kernel, _, List.mem_cons_self, by decide +kernel, by decide +kernel⟩,
    ⟨two_wf.2, by decide +kernel, _, List.mem_cons_of_mem _ List.mem_cons_self, by decide +kernel, by decide +kernel⟩⟩

example : FileOk twoFile ∧ (∃ u sc f, FileSubscribes twoFile u sc f) ∧ NoRivals twoFile ∧ FileNoForks twoFile ∧
    NoWidest twoFile := by
  refine ⟨?_, ⟨_, _, _, two_both.1⟩, ?_, ?_, ?_⟩
  · intro r hr
    unfold twoFile at hr
    rw [List.mem_cons, List.mem_singleton] at hr
    rcases hr with rfl | rfl
    · refine ⟨by simp, fun p hp _ => ?_⟩
      rw [List.tail_cons, List.mem_singleton] at hp
      exact ⟨.sgtin, _, two_wf.1, by rw [hp]; decide +kernel⟩
    · refine ⟨by simp, fun p hp _ => ?_⟩
      rw [List.tail_cons, List.mem_singleton] at hp
      exact ⟨.sgtin, _, two_wf.2, by rw [hp]; decide +kernel⟩
  · intro u v sc f sc' f' hu hv hs
    rcases two_subscribes u sc f hu with ⟨rfl, rfl, rfl⟩ | ⟨rfl, rfl, rfl⟩ <;>
      rcases two_subscribes v sc' f' hv with ⟨rfl, rfl, rfl⟩ | ⟨rfl, rfl, rfl⟩
    · rfl
    · exact absurd hs.1 two_differ.1
    · exact absurd hs.1 two_differ.2
    · rfl
  · intro u v w p a b hp ha hb h1 h2
    rcases two_subscribes v a.1 a.2 ha with ⟨-, e1, e2⟩ | ⟨-, e1, e2⟩ <;>
      rcases two_subscribes w b.1 b.2 hb with ⟨-, e3, e4⟩ | ⟨-, e3, e4⟩
    · rw [e1, e2, e3, e4]; exact Or.inl fun _ _ h => h
    · exfalso
      rcases two_subscribes u p.1 p.2 hp with ⟨-, e5, e6⟩ | ⟨-, e5, e6⟩
      · exact two_differ.2 (by have := h2.1; rw [e3, e4, e5, e6] at this; exact this)
      · exact two_differ.1 (by have := h1.1; rw [e1, e2, e5, e6] at this; exact this)
    · exfalso
      rcases two_subscribes u p.1 p.2 hp with ⟨-, e5, e6⟩ | ⟨-, e5, e6⟩
      · exact two_differ.2 (by have := h1.1; rw [e1, e2, e5, e6] at this; exact this)
      · exact two_differ.1 (by have := h2.1; rw [e3, e4, e5, e6] at this; exact this)
    · rw [e1, e2, e3, e4]; exact Or.inl fun _ _ h => h
  · intro u sc f h
    rcases two_subscribes u sc f h with ⟨-, rfl, rfl⟩ | ⟨-, rfl, rfl⟩
    · exact ⟨_, _, _, two_both.2, two_differ.2⟩
    · exact ⟨_, _, _, two_both.1, two_differ.1⟩

-- test: on that file the three engines answer alike
example : (loadRecords twoFile).bind (fun sub =>
      (newList sampleBinutil.encoder sub).search translate tagA.1 tagA.2) =
    some ⟨identA, ["http://a".toList], false⟩ ∧
    (loadRecords twoFile).bind (fun sub =>
      (newPatricia sampleBinutil.encoder sub).searchEngine translate tagA.1 tagA.2) =
    some ⟨identA, ["http://a".toList], false⟩ ∧
    (loadRecords twoFile).bind (fun sub => (newSplay sampleBinutil.encoder sub).bind fun t =>
      (t.searchEngine translate tagA.1 tagA.2).map Prod.fst) =
    some ⟨identA, ["http://a".toList], false⟩ := by decide +kernel

-- test: a tag that C91_killer speaks of and that is due to nobody on that file
example : translate [48#8, 0#8] [0x30, 0x74, 0x25, 0x7B, 0xF7, 0xFF, 0xFF, 0xC0, 0x00, 0x00, 0x1A, 0x85] = none ∧
    ¬ Scheme.sgtin.Has [0x30, 0x74, 0x25, 0x7B, 0xF7, 0xFF, 0xFF, 0xC0, 0x00, 0x00, 0x1A, 0x85]
      ["3".toList, "0614141".toList, "812345".toList] := by
  refine ⟨by decide +kernel, ?_⟩
  unfold Scheme.Has; decide +kernel

end Gosstrak
