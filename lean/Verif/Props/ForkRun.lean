import Verif.Proofs.ForkRun
import Verif.Props.MixedRun

/-! # C102: the whole program on files in which patterns fork -/
namespace Gosstrak

variable {F : Type} {env : FcEnv} {fl : Floats F}

/-- C102: on any file, whatever was searched before, by whichever engines and for whichever tags, a search of the
    factory ends the process if it goes through an engine that the tag must end, and only if it goes through one
    that the tag may end. Otherwise the list, the trie and the legacy engine answer as on files without forks, and
    the splay tree reports a chain of patterns that all select the tag or all do not. -/
theorem C102_search (x : Binutil) (hx : x.Ok) (records : List (List Str)) (hf : FileFine records)
    (hne : ∃ u t f, FileGives records u t f) :
    ∃ sub, loadRecords records = some sub ∧ ∀ o1 o2 o3 : Subs, o1.Perm sub → o2.Perm sub → o3.Perm sub →
      ∃ E, newEngines x.encoder sub o1 o2 o3 = some E ∧
        ∀ {can : List EngineName → EngineName → Prop} {events : List ReadEvent} {results : List SearchResult}
          {E' : Engines}, Answered (enginesAnswer translate can) E events results E' →
          ∀ (e : ReadEvent) (others : List EngineName) (selected : EngineName),
            (∃ r, FactorySearch translate e selected E' others r) ∧
            ∀ r, FactorySearch translate e selected E' others r →
              ((∃ n ∈ selected :: others, MustEnd records e n) → r = none) ∧
              (r = none → ∃ n ∈ selected :: others, MayEnd records e n) ∧
              ∀ q E'', r = some (q, E'') → (selected ≠ .splay → GivesAnswer records e q selected) ∧
                (selected = .splay → SplayAnswer records e q) := by
  obtain ⟨sub, l1, hb⟩ := mixedBehind x hx records hf
  refine ⟨sub, l1, fun o1 o2 o3 p1 p2 p3 => ?_⟩
  obtain ⟨E, e1, hE⟩ := forkEngines_new hb hne p1 p2 p3
  refine ⟨E, e1, fun ha e others selected => ⟨factorySearch_total _ _ _ _ _, fun r hr => ?_⟩⟩
  obtain ⟨a, b, c⟩ := fork_factory hb hne hr (fork_answered hb hne ha hE)
  exact ⟨a, b, fun q E'' h => (c q E'' h).2⟩

/-- C102: a tag with at least as many bits as any pattern asks for, and that can be translated, ends no engine. -/
theorem C102_long (records : List (List Str)) (hf : FileFine records) (e : ReadEvent)
    (hl : LongFor records e.2) (htr : translate e.1 e.2 ≠ none) (n : EngineName) :
    ¬ MayEnd records e n ∧ ¬ EndsIn records e n := by
  obtain ⟨sub, -, hb⟩ := mixedBehind sampleBinutil sampleBinutil_ok records hf
  refine ⟨long_safe hb hl htr n, ?_⟩
  cases n with
  | legacy => exact long_safe hb hl htr .legacy
  | list => exact long_safe hb hl htr .list
  | splay => exact long_safe hb hl htr .list
  | patricia => exact long_safe hb hl htr .patricia

section
variable {x : Binutil} {records : List (List Str)} {sub : Subs}

/-- an answer of the factory with the list or the trie selected -/
theorem fork_factory_uris (hb : MixedBehind x records sub) (hne : ∃ u t f, FileGives records u t f)
    (hr : NoDoubles records) (hw : NoneAll records) {e : ReadEvent} {sel : EngineName} (hleg : sel ≠ .legacy)
    (hspl : sel ≠ .splay) {E : Engines} {others : List EngineName} {r : Option (SearchResult × Engines)}
    (h : FactorySearch translate e sel E others r) (hE : ForkEngines x sub E) : ∀ q E', r = some (q, E') →
    e.2 ≠ [] ∧ ∃ uris, Reported x records e.2 uris ∧ finishSearch translate e.1 e.2 uris = some q := by
  induction h with
  | selected h =>
    rintro q E' rfl
    exact still_uris hb hne hr hw hE.toStillEngines hleg hspl h
  | other h _ ih => exact ih ((fork_engine hb hne hE h).2.2 _ _ rfl).1
  | panic h => intro q E' h; cases h

theorem fork_delivered (hb : MixedBehind x records sub) (hne : ∃ u t f, FileGives records u t f)
    (hr : NoDoubles records) (hw : NoneAll records) {E E' : Engines} {batch : List ReadEvent}
    {results : List SearchResult}
    (h : Answered (enginesAnswer translate fun _ m => m ≠ .legacy ∧ m ≠ .splay) E batch results E')
    (hE : ForkEngines x sub E) : Delivered records (batch, collectReports results) := by
  refine delivered_by hb (Inv := ForkEngines x sub) ?_ h hE
  rintro E e q E' ⟨o, sel, hc, h⟩ hE
  exact ⟨((fork_factory hb hne h hE).2.2 _ _ rfl).1, fork_factory_uris hb hne hr hw hc.1 hc.2 h hE _ _ rfl⟩

/-- an answer of a byte engine for a tag that is due to someone, if no pattern selects all -/
theorem fork_someone (hb : MixedBehind x records sub) (hne : ∃ u t f, FileGives records u t f)
    (hw : NoneAll records) {e : ReadEvent} {sel : EngineName} (hleg : sel ≠ .legacy) {E E' : Engines}
    {others : List EngineName} {q : SearchResult} (h : FactorySearch translate e sel E others (some (q, E')))
    (hE : ForkEngines x sub E) (hdue : ∃ u, DueIn records e.2 u) :
    q.reportURIs ≠ [] ∧ translate e.1 e.2 = some (q.pureIdentity, q.err) := by
  obtain ⟨-, a, b⟩ := (fork_factory hb hne h hE).2.2 _ _ rfl
  have key : ∀ P : Str → List Str → Prop, (∀ u t f, FileGives records u t f → P t f) →
      AnswersWith P records e q → q.reportURIs ≠ [] ∧ translate e.1 e.2 = some (q.pureIdentity, q.err) := by
    rintro P hP ⟨-, h2, h3, -⟩
    obtain ⟨u, t, f, hg, hs⟩ := hdue
    obtain ⟨v, hv, -⟩ := h2 u t f hg (hP u t f hg) hs
    exact ⟨List.ne_nil_of_mem hv, h3 (List.ne_nil_of_mem hv)⟩
  cases sel with
  | legacy => exact absurd rfl hleg
  | list => exact key _ (fun _ _ _ _ => trivial) (a (by simp))
  | patricia => exact key _ hw (a (by simp))
  | splay =>
    have hs := b rfl
    exact ⟨hs.someone hdue, hs.identity (hs.someone hdue)⟩

theorem fork_notLost (hb : MixedBehind x records sub) (hne : ∃ u t f, FileGives records u t f)
    (hw : NoneAll records) {E E' : Engines} {batch : List ReadEvent} {results : List SearchResult}
    (h : Answered (enginesAnswer translate fun _ m => m ≠ .legacy) E batch results E')
    (hE : ForkEngines x sub E) : NotLost records (batch, collectReports results) := by
  intro e he i hi hdue
  have key : ∃ d, i ∈ owed results d := by
    induction h with
    | nil => cases he
    | @cons E E1 E2 e' q es rs h _ ih =>
      obtain ⟨o, sel, hc, h⟩ := h
      rcases List.mem_cons.mp he with rfl | he
      · obtain ⟨h1, h2⟩ := fork_someone hb hne hw hc h hE hdue
        obtain ⟨d, hd⟩ := List.exists_mem_of_ne_nil _ h1
        have herr : q.err = false ∧ q.pureIdentity = i := by
          unfold identityOf at hi
          rw [h2] at hi
          cases hq : q.err with
          | true => rw [hq] at hi; cases hi
          | false => rw [hq] at hi; exact ⟨rfl, Option.some.inj hi⟩
        refine ⟨d, ?_⟩
        unfold owed
        rw [List.flatMap_cons, List.mem_append]
        left
        rw [herr.1, herr.2]
        have := List.count_pos_iff.mpr hd
        simp [List.mem_replicate]
        omega
      · obtain ⟨d, hd⟩ := ih ((fork_factory hb hne h hE).2.2 _ _ rfl).1 he
        refine ⟨d, ?_⟩
        unfold owed at hd ⊢
        rw [List.flatMap_cons, List.mem_append]
        exact Or.inr hd
  obtain ⟨d, hd⟩ := key
  refine ⟨d, owed results d, ?_, hd⟩
  dsimp only
  rw [C61_collected, if_neg (List.ne_nil_of_mem hd)]

end

/-- C102: the whole program from the text of any file in which no two URIs have patterns that select the same
    tags and no pattern selects all that any selects, forks or not. As long as the reader sends whole messages and
    tags that are long enough and can be translated, the program has not ended, has written the first of the
    replies owed and has answered the first of the batches sent; and as long as the legacy engine was not selected
    for an answer, no tag that is due to someone and has an identity is lost. As long as the splay tree was not
    selected either, everyone gets exactly what is due. -/
theorem C102_program (hfl : fl.Lawful) (x : Binutil) (hx : x.Ok) (text : Str) (records : List (List Str))
    (htext : CsvText records (lineEnds text)) (hf : FileFine records)
    (hne : ∃ u t f, FileGives records u t f) (hr : NoDoubles records)
    (hw : NoneAll records) (hd : env.headers.Distinct) :
    ∃ sub, loadFile text = some sub ∧ ∀ o1 o2 o3 : Subs, o1.Perm sub → o2.Perm sub → o3.Perm sub →
      ∃ E, newEngines x.encoder sub o1 o2 o3 = some E ∧
      ∀ {flag : Option Int} {ls : List ProgLabel} {s : Prog F},
        ProgRun env (Config.code fl) translate (progStart (Config.code fl) sub E flag) ls s →
        ∀ {ms : List LlrpMessage} {as : List LlrpAction} {rest : List Byte} {batches : List (List ReadEvent)},
        (∀ m ∈ ms, m.Fits) → Answers env.headers ms as → readMessage rest = none →
        arrivedIn (fcMoves ls) = ms.flatMap LlrpMessage.wire ++ rest → .eof ∉ fcMoves ls →
        (reportBodies as).map env.decode = batches.map some →
        (∀ b ∈ batches, ∀ e ∈ b, LongFor records e.2 ∧ translate e.1 e.2 ≠ none) →
        s.fc.ended = none ∧ s.fc.written <+: repliesTo 0#32 as ∧ s.fc.done.map Prod.fst <+: batches ∧
          (EngineName.legacy.text ∉ s.chosen → ∀ p ∈ s.fc.done, NotLost records p) ∧
          (EngineName.legacy.text ∉ s.chosen → EngineName.splay.text ∉ s.chosen →
            ∀ p ∈ s.fc.done, Delivered records p) ∧
          (s.AtRest env (Config.code fl) translate →
            s.fc.written = repliesTo 0#32 as ∧ s.fc.done.map Prod.fst = batches ∧
              World.AtRest (Config.code fl) s.world) := by
  obtain ⟨sub, l1, hb⟩ := mixedBehind x hx records hf
  refine ⟨sub, by rw [loadFile_of_text htext, l1], fun o1 o2 o3 p1 p2 p3 => ?_⟩
  obtain ⟨E, e1, hE⟩ := forkEngines_new hb hne p1 p2 p3
  refine ⟨E, e1, ?_⟩
  intro flag ls s h ms as rest batches hm ha hr0 hbytes heof hdec hsafe
  have hstep : ∀ {E e sel o r}, ForkEngines x sub E → FactorySearch translate e sel E o r →
      ((LongFor records e.2 ∧ translate e.1 e.2 ≠ none) → r ≠ none) ∧
        ∀ q E', r = some (q, E') → ForkEngines x sub E' := by
    intro E e sel o r hE hs
    obtain ⟨-, b, c⟩ := fork_factory hb hne hs hE
    exact ⟨fun hg h0 => by obtain ⟨n, -, hend⟩ := b h0; exact long_safe hb hg.1 hg.2 n hend,
      fun q E' h => (c q E' h).1⟩
  obtain ⟨a1, a2, a3, -, a4⟩ := prog_safe hfl (P := fun _ => True) trivial (Inv := ForkEngines x sub)
    (Good := fun e => LongFor records e.2 ∧ translate e.1 e.2 ≠ none) (D := fun _ => True) hE
    (fun hE _ hs => hstep hE hs) (fun _ _ => trivial) hd h (fun _ _ => trivial) hm ha hr0 hbytes heof hdec hsafe
  refine ⟨a1, a2, a3, fun hleg => ?_, fun hleg hspl => ?_, a4⟩
  · exact (prog_safe hfl (P := fun m => m ≠ .legacy) (by simp) (Inv := ForkEngines x sub)
      (Good := fun e => LongFor records e.2 ∧ translate e.1 e.2 ≠ none) (D := NotLost records) hE
      (fun hE _ hs => hstep hE hs) (fun hE hA => fork_notLost hb hne hw hA hE) hd h
      (fun m hm => by rintro rfl; exact hleg hm) hm ha hr0 hbytes heof hdec hsafe).2.2.2.1
  · exact (prog_safe hfl (P := fun m => m ≠ .legacy ∧ m ≠ .splay) (by simp) (Inv := ForkEngines x sub)
      (Good := fun e => LongFor records e.2 ∧ translate e.1 e.2 ≠ none) (D := Delivered records) hE
      (fun hE _ hs => hstep hE hs) (fun hE hA => fork_delivered hb hne hr hw hA hE) hd h
      (fun m hm => ⟨by rintro rfl; exact hleg hm, by rintro rfl; exact hspl hm⟩) hm ha hr0 hbytes heof hdec
      hsafe).2.2.2.1

/-- every answered search of the splay tree built in this order reports only to URIs that the tag is due to -/
def ReportsOnlyDue (x : Binutil) (records : List (List Str)) (order : Subs) : Prop :=
  ∀ (ids : List (List Byte)) (id : List Byte) (t0 t t' : SNode) (us : List Str),
    newSplay x.encoder order = some t0 → t0.searches ids = some t → t.search id = some (us, t') →
    ∀ u ∈ us, DueIn records id u

/-- C102: if every URI has one pattern and no two URIs have the same, the splay tree reports only what is due,
    whatever is searched, exactly if no pattern that does not select all tags forks. -/
theorem C102_only_due_iff (x : Binutil) (hx : x.Ok) (records : List (List Str)) (hf : FileFine records)
    (hne : ∃ u t f, FileGives records u t f) (hr : NoDoubles records) (ho : OnePatternEach records) :
    ∃ sub, loadRecords records = some sub ∧ ∀ order : Subs, order.Perm sub →
      (ReportsOnlyDue x records order ↔ NoForkBelow records) := by
  obtain ⟨sub, l1, hb⟩ := mixedBehind x hx records hf
  refine ⟨sub, l1, fun order hp => ?_⟩
  have hbit : ∀ k u, (k, u) ∈ toByteSubscriptions x.encoder order → IsBitStr k := fun k u h => hb.bits hp h
  have hbne := hb.nonempty hp hne
  have huniq : OneFilterEach (toByteSubscriptions x.encoder order) := by
    intro k k' u h h'
    obtain ⟨t, f, hg, rfl⟩ := hb.mem hp h
    obtain ⟨t', f', hg', rfl⟩ := hb.mem hp h'
    exact (key_of_same x hb.ok (hb.known hg) (hb.known hg')).mp (ho u t f t' f' hg hg')
  have hsame : ReportsOnlyDue x records order ↔ ReportsOnlyTrue x.encoder order := by
    refine forall₄_congr fun ids id t0 t => forall₄_congr fun t' us h0 h => forall_congr' fun hs =>
      forall₂_congr fun u _ => ?_
    have hid : id ≠ [] := by
      rintro rfl
      obtain ⟨hm, hbk, -⟩ := splay_shelf x.encoder order hbne hbit
      obtain ⟨v, -, hv⟩ := splay_reached_shelf hbne hbit h0 h
      obtain ⟨ks, hwk, -⟩ := shelfTree_of_search hm hbk hv hs
      obtain ⟨-, -, -, hi⟩ := hv
      exact walk_empty_tag hm hbne hi hwk
    constructor
    · rintro ⟨t, f, hg, hsel⟩
      exact ⟨keyOf x t f, (hb.exact hr hp _ _).mpr ⟨t, f, hg, rfl⟩,
        ((known_key x hb.ok (hb.known hg)).2 id hid).mpr hsel⟩
    · rintro ⟨k, hk, hpre⟩
      obtain ⟨t, f, hg, rfl⟩ := hb.mem hp hk
      exact ⟨t, f, hg, ((known_key x hb.ok (hb.known hg)).2 id hid).mp hpre⟩
  rw [hsame, C101_only_true_iff x.encoder order hbne hbit huniq]
  have hsel : ∀ {u t f}, FileGives records u t f →
      ((∃ id : List Byte, id ≠ [] ∧ ¬ PatSelects t f id) ↔ keyOf x t f ≠ []) := by
    intro u t f hg
    obtain ⟨b1, b2⟩ := known_key x hb.ok (hb.known hg)
    constructor
    · rintro ⟨id, hid, hno⟩ h0
      refine hno ((b2 id hid).mp ?_)
      rw [h0]; exact List.nil_prefix
    · intro h0
      obtain ⟨id, h1, h2, -⟩ := exists_id_from (flip_bits (keyOf x t f)) 0
      refine ⟨id, h1, fun hs => ?_⟩
      have h3 := (b2 id h1).mpr hs
      have hl : 0 < (keyOf x t f).length := List.length_pos_iff.mpr h0
      have hl' : 0 < (flipBits (keyOf x t f)).length := by unfold flipBits; rw [List.length_map]; exact hl
      rw [List.prefix_iff_getElem?] at h2 h3
      have := h2 0 hl'
      rw [h3 0 hl, ← List.getElem?_eq_getElem hl, ← List.getElem?_eq_getElem hl'] at this
      exact flip_ne b1 hl this.symm
  constructor
  · rintro h u v w ⟨p1, p2⟩ ⟨a1, a2⟩ ⟨b1, b2⟩ hgp hga hgb hp0 hap hbp
    obtain ⟨n1, n2⟩ := (hb.narrower hga hgp).mp hap
    obtain ⟨n3, n4⟩ := (hb.narrower hgb hgp).mp hbp
    rw [key_of_within x hb.ok (hb.known hga) (hb.known hgb), key_of_within x hb.ok (hb.known hgb) (hb.known hga)]
    apply Classical.byContradiction
    intro hno
    obtain ⟨c, hc, hfork⟩ := fork_between (S := fun k u => (k, u) ∈ toByteSubscriptions x.encoder order) _ (Nat.le_add_left _ _) ((hb.exact hr hp _ u).mpr ⟨p1, p2, hgp, rfl⟩)
      ((hb.exact hr hp _ v).mpr ⟨a1, a2, hga, rfl⟩) ((hb.exact hr hp _ w).mpr ⟨b1, b2, hgb, rfl⟩)
      ⟨n1, n2⟩ ⟨n3, n4⟩ (fun h => hno (Or.inr h)) fun h => hno (Or.inl h)
    refine h c (fun h0 => ?_) hfork
    rw [h0] at hc
    exact (hsel hgp).mp hp0 (List.prefix_nil.mp hc)
  · rintro h a ha ⟨⟨u, hu⟩, k, k', v, w, hk, hk', hak, hak', hno⟩
    obtain ⟨t, f, hg, rfl⟩ := hb.mem hp hu
    obtain ⟨t1, f1, hg1, rfl⟩ := hb.mem hp hk
    obtain ⟨t2, f2, hg2, rfl⟩ := hb.mem hp hk'
    rcases h u v w (t, f) (t1, f1) (t2, f2) hg hg1 hg2 ((hsel hg).mpr ha) ((hb.narrower hg1 hg).mpr hak)
      ((hb.narrower hg2 hg).mpr hak') with h0 | h0
    · exact hno _ w hk' hak' ⟨(key_of_within x hb.ok (hb.known hg1) (hb.known hg2)).mp h0, List.prefix_rfl⟩
    · exact hno _ v hk hak ⟨List.prefix_rfl, (key_of_within x hb.ok (hb.known hg2) (hb.known hg1)).mp h0⟩

/-! ## Cases -/

private def forkText : Str :=
  ("http://a,urn:epc:pat:sgtin-96:3.0614141\r\nhttp://b,urn:epc:pat:sgtin-96:3.0614141.812345\n" ++
  "\"http://c\",urn:epc:pat:sgtin-96:3.0614141.812346\nhttp://d,urn:epc:pat:iso17363:7b.CSQ").toList

private def forkFile : List (List Str) :=
  [["http://a".toList, "urn:epc:pat:sgtin-96:3.0614141".toList],
   ["http://b".toList, "urn:epc:pat:sgtin-96:3.0614141.812345".toList],
   ["http://c".toList, "urn:epc:pat:sgtin-96:3.0614141.812346".toList],
   ["http://d".toList, "urn:epc:pat:iso17363:7b.CSQ".toList]]

private def fourPatterns : List (Str × Str × List Str) :=
  [("http://a".toList, "sgtin-96".toList, ["3".toList, "0614141".toList]),
   ("http://b".toList, "sgtin-96".toList, ["3".toList, "0614141".toList, "812345".toList]),
   ("http://c".toList, "sgtin-96".toList, ["3".toList, "0614141".toList, "812346".toList]),
   ("http://d".toList, "iso17363".toList, ["7B".toList, "CSQ".toList])]

private theorem fork_text : CsvText forkFile (lineEnds forkText) := by rw [← C95_reads]; decide +kernel

private theorem fork_patterns {r : List Str} (hr : r ∈ forkFile) {p : Str} (hp : p ∈ r.tail) {t : Str}
    {f : List Str} (h : PatternOf p t f) : (((r.head?).map toLower).getD [], t, f) ∈ fourPatterns := by
  have key : ∀ r ∈ forkFile, ∀ p ∈ r.tail,
      (match splitOn ':' (trimPrefix p "urn:epc:pat:".toList) with
      | [t, g] => decide ((((r.head?).map toLower).getD [], t, splitOn '.' (toUpper g)) ∈ fourPatterns)
      | _ => true) = true := by decide +kernel
  obtain ⟨g, h1, rfl⟩ := patternOf_computed h
  have := key r hr p hp
  rw [h1] at this
  exact of_decide_eq_true this

private theorem fork_known {u t : Str} {f : List Str} (h : (u, t, f) ∈ fourPatterns) : PatKnown t f := by
  have wf1 : Scheme.sgtin.Encodable ["3".toList, "0614141".toList] := by
    unfold Scheme.Encodable; decide +kernel
  have wf2 : Scheme.sgtin.Encodable ["3".toList, "0614141".toList, "812345".toList] := by
    unfold Scheme.Encodable; decide +kernel
  have wf3 : Scheme.sgtin.Encodable ["3".toList, "0614141".toList, "812346".toList] := by
    unfold Scheme.Encodable; decide +kernel
  unfold fourPatterns at h
  simp only [List.mem_cons, List.not_mem_nil, or_false, Prod.mk.injEq] at h
  rcases h with ⟨-, rfl, rfl⟩ | ⟨-, rfl, rfl⟩ | ⟨-, rfl, rfl⟩ | ⟨-, rfl, rfl⟩
  · exact Or.inl ⟨.sgtin, rfl, wf1⟩
  · exact Or.inl ⟨.sgtin, rfl, wf2⟩
  · exact Or.inl ⟨.sgtin, rfl, wf3⟩
  · exact Or.inr (Or.inl ⟨_, .container _ (by decide) (by decide) (by decide +kernel)⟩)

private theorem fork_fine : FileFine forkFile := by
  intro r hr
  refine ⟨?_, fun p hp _ t f h => fork_known (fork_patterns hr hp h)⟩
  have : ∀ r ∈ forkFile, r ≠ [] := by decide
  exact this r hr

private theorem fork_gives (u t : Str) (f : List Str) : FileGives forkFile u t f ↔ (u, t, f) ∈ fourPatterns := by
  constructor
  · rintro ⟨-, r, hr, hu, p, hp, -, hof⟩
    have := fork_patterns hr hp hof
    rwa [hu] at this
  · have key : ∀ a ∈ fourPatterns, "http".toList <+: a.1 ∧ ∃ r ∈ forkFile, (r.head?).map toLower = some a.1 ∧
        ∃ p ∈ r.tail, "urn:epc:pat:".toList <+: toLower p ∧
          ∃ g ∈ [(splitOn ':' (trimPrefix p "urn:epc:pat:".toList)).getLast?.getD []],
            splitOn ':' (trimPrefix p "urn:epc:pat:".toList) = [a.2.1, g] ∧ splitOn '.' (toUpper g) = a.2.2 := by
      decide +kernel
    intro h
    obtain ⟨h1, r, h2, h3, p, h4, h5, g, -, h6, h7⟩ := key _ h
    refine ⟨h1, r, h2, h3, p, h4, h5, trimPrefix p "urn:epc:pat:".toList, g, ?_, ?_, ?_⟩
    · rw [stripped_iff]
    · rw [← splitOn_iff]; exact h6
    · rw [← splitOn_iff]; exact h7

private def forkKey (a : Str × Str × List Str) : Str := keyOf sampleBinutil a.2.1 a.2.2

private theorem fork_within {u u' t t' : Str} {f f' : List Str} (h : FileGives forkFile u t f)
    (h' : FileGives forkFile u' t' f') : PatWithin t f t' f' ↔ forkKey (u', t', f') <+: forkKey (u, t, f) :=
  key_of_within sampleBinutil sampleBinutil_ok (gives_known fork_fine h) (gives_known fork_fine h')

private theorem fork_some : ∃ u t f, FileGives forkFile u t f := ⟨_, _, _, (fork_gives _ _ _).mpr List.mem_cons_self⟩

private theorem fork_noDoubles : NoDoubles forkFile := by
  intro u v t f t' f' h h' hs
  have e := (key_of_same sampleBinutil sampleBinutil_ok (gives_known fork_fine h) (gives_known fork_fine h')).mp hs
  have key : ∀ a ∈ fourPatterns, ∀ b ∈ fourPatterns, forkKey a = forkKey b → a.1 = b.1 := by decide +kernel
  exact key _ ((fork_gives _ _ _).mp h) _ ((fork_gives _ _ _).mp h') e

private theorem fork_oneEach : OnePatternEach forkFile := by
  intro u t f t' f' h h'
  rw [key_of_same sampleBinutil sampleBinutil_ok (gives_known fork_fine h) (gives_known fork_fine h')]
  have key : ∀ a ∈ fourPatterns, ∀ b ∈ fourPatterns, a.1 = b.1 → forkKey a = forkKey b := by decide +kernel
  exact key _ ((fork_gives _ _ _).mp h) _ ((fork_gives _ _ _).mp h') rfl

private theorem fork_noneAll : NoneAll forkFile := by
  intro u t f h
  have key : ∀ a ∈ fourPatterns, ∃ b ∈ fourPatterns, ¬ forkKey a <+: forkKey b := by decide +kernel
  obtain ⟨b, hb, hne⟩ := key _ ((fork_gives _ _ _).mp h)
  exact ⟨b.1, b.2.1, b.2.2, (fork_gives _ _ _).mpr hb, fun hw => hne ((fork_within ((fork_gives _ _ _).mpr hb) h).mp hw)⟩

private theorem fork_due (id : List Byte) (hid : id ≠ []) (u : Str) :
    DueIn forkFile id u ↔ ∃ a ∈ fourPatterns, a.1 = u ∧ forkKey a <+: bitsOf id := by
  constructor
  · rintro ⟨t, f, hg, hs⟩
    exact ⟨(u, t, f), (fork_gives _ _ _).mp hg, rfl,
      ((known_key sampleBinutil sampleBinutil_ok (gives_known fork_fine hg)).2 id hid).mpr hs⟩
  · rintro ⟨⟨u', t, f⟩, ha, rfl, hp⟩
    have hg := (fork_gives _ _ _).mpr ha
    exact ⟨t, f, hg, ((known_key sampleBinutil sampleBinutil_ok (gives_known fork_fine hg)).2 id hid).mp hp⟩

private theorem fork_long (id : List Byte) (hid : id ≠ []) (h : ∀ a ∈ fourPatterns, (forkKey a).length ≤ 8 * id.length) :
    LongFor forkFile id := by
  refine ⟨hid, fun u t f bits hg ha => ?_⟩
  exact ((key_asks sampleBinutil sampleBinutil_ok (gives_known fork_fine hg) _).mp ha).length_le.trans
    (h _ ((fork_gives _ _ _).mp hg))

-- test: the file forks below its first pattern
example : ¬ NoForkBelow forkFile ∧ ¬ PatNoForks forkFile := by
  have ga := (fork_gives "http://a".toList "sgtin-96".toList ["3".toList, "0614141".toList]).mpr (by decide +kernel)
  have gb := (fork_gives "http://b".toList "sgtin-96".toList ["3".toList, "0614141".toList, "812345".toList]).mpr
    (by decide +kernel)
  have gc := (fork_gives "http://c".toList "sgtin-96".toList ["3".toList, "0614141".toList, "812346".toList]).mpr
    (by decide +kernel)
  have n1 : PatNarrower ("sgtin-96".toList, ["3".toList, "0614141".toList, "812345".toList])
      ("sgtin-96".toList, ["3".toList, "0614141".toList]) :=
    ⟨(fork_within gb ga).mpr (by decide +kernel), fun h => absurd ((fork_within ga gb).mp h) (by decide +kernel)⟩
  have n2 : PatNarrower ("sgtin-96".toList, ["3".toList, "0614141".toList, "812346".toList])
      ("sgtin-96".toList, ["3".toList, "0614141".toList]) :=
    ⟨(fork_within gc ga).mpr (by decide +kernel), fun h => absurd ((fork_within ga gc).mp h) (by decide +kernel)⟩
  have hno : ¬ (PatWithin "sgtin-96".toList ["3".toList, "0614141".toList, "812345".toList] "sgtin-96".toList
      ["3".toList, "0614141".toList, "812346".toList] ∨ PatWithin "sgtin-96".toList
      ["3".toList, "0614141".toList, "812346".toList] "sgtin-96".toList ["3".toList, "0614141".toList, "812345".toList]) := by
    rintro (h | h)
    · exact absurd ((fork_within gb gc).mp h) (by decide +kernel)
    · exact absurd ((fork_within gc gb).mp h) (by decide +kernel)
  refine ⟨fun h => hno (h _ _ _ _ (_, _) (_, _) ga gb gc ⟨[0#8], by decide, fun hs => ?_⟩ n1 n2),
    fun h => hno (h _ _ _ _ (_, _) (_, _) ga gb gc n1 n2)⟩
  exact absurd (((known_key sampleBinutil sampleBinutil_ok (gives_known fork_fine ga)).2 [0#8] (by decide)).mpr hs)
    (by decide +kernel)

/-- items 812346 of company 0614141 with two serial numbers, and item 812346 of company 0614142 -/
private def forkBatch : List ReadEvent :=
  [([48#8, 0#8], [48#8, 116#8, 37#8, 123#8, 247#8, 25#8, 78#8, 128#8, 0#8, 0#8, 26#8, 133#8]),
   ([48#8, 0#8], [48#8, 116#8, 37#8, 123#8, 247#8, 25#8, 78#8, 128#8, 0#8, 0#8, 26#8, 134#8]),
   ([48#8, 0#8], [48#8, 116#8, 37#8, 123#8, 251#8, 25#8, 78#8, 128#8, 0#8, 0#8, 26#8, 135#8])]

private def forkReports : List (Str × List Str) :=
  [("http://a".toList, ["urn:epc:id:sgtin:0614141.812346.6789".toList]),
   ("http://c".toList, ["urn:epc:id:sgtin:0614141.812346.6789".toList,
     "urn:epc:id:sgtin:0614141.812346.6790".toList, "urn:epc:id:sgtin:0614142.812346.6791".toList])]

private def forkEnv : FcEnv := ⟨someHeaders, fun _ => some forkBatch⟩

private def forkStart : Option (Prog (Nat × Nat)) :=
  (loadFile forkText).bind fun sub => (newEngines sampleBinutil.encoder sub sub sub sub).map fun E =>
    progStart exactCode sub E none

private def oneAnswer : List ProgOrder :=
  [.factory (.search codeNames), .factory .searchNext, .factory .searchNext, .factory .searchNext,
    .factory .searchNext, .factory .searchNext, .engine .splay, .factory .readMatched, .factory .writeMatched, .ret 1000]

private def forkOrders : List ProgOrder :=
  ((listReady.map fun l => match l with
    | .init _ => .init "SplayTree".toList
    | .build _ => .build "SplayTree".toList
    | .deploy _ => .deploy "SplayTree".toList
    | .recvGenerated _ => .recvGenerated "SplayTree".toList
    | l => l).map .factory) ++
  [.fc (.arrive (⟨0x043D, 9, []⟩ : LlrpMessage).wire), .fc .read, .fc .hand] ++
  oneAnswer ++ oneAnswer ++ oneAnswer ++ [.fc .finish]

/-- C102, in the code: with the splay tree selected, on a file that forks, a run of the whole program for long tags
    that have identities does not deliver one of them to a destination it is due to, and delivers another one to a
    destination it is not due to. -/
theorem C102_misreports : ∃ (env : FcEnv) (text : Str) (records : List (List Str)) (sub : Subs) (E : Engines)
    (ls : List ProgLabel) (s : Prog (Nat × Nat)) (batch : List ReadEvent) (reports : List (Str × List Str)),
    CsvText records (lineEnds text) ∧ FileFine records ∧ (∃ u t f, FileGives records u t f) ∧ NoDoubles records ∧
    NoneAll records ∧ OnePatternEach records ∧ loadFile text = some sub ∧
    newEngines sampleBinutil.encoder sub sub sub sub = some E ∧
    ProgRun env exactCode translate (progStart exactCode sub E none) ls s ∧ s.fc.ended = none ∧
    (∀ n ∈ s.chosen, n = EngineName.splay.text) ∧ s.fc.done = [(batch, reports)] ∧
    (∀ e ∈ batch, LongFor records e.2 ∧ identityOf e ≠ none) ∧
    (∃ e ∈ batch, ∃ d i, identityOf e = some i ∧ DueIn records e.2 d ∧ i ∉ (mapGet reports d).getD []) ∧
    ∃ d i ids, mapGet reports d = some ids ∧ i ∈ ids ∧
      ¬ ∃ e ∈ batch, identityOf e = some i ∧ DueIn records e.2 d := by
  have hrun : (forkStart.bind fun s => (progExecs forkEnv exactCode translate s forkOrders).map fun p =>
      decide (∀ n ∈ p.2.chosen, n = EngineName.splay.text) && decide (p.2.fc.ended = none) &&
      decide (p.2.fc.done = [(forkBatch, forkReports)])) = some true := by decide +kernel
  obtain ⟨s0, hs0, hrun⟩ := Option.bind_eq_some_iff.mp hrun
  unfold forkStart at hs0
  obtain ⟨sub, hsub, hs0⟩ := Option.bind_eq_some_iff.mp hs0
  obtain ⟨E, hE, rfl⟩ := Option.map_eq_some_iff.mp hs0
  obtain ⟨⟨ls, s⟩, hx, he⟩ := Option.map_eq_some_iff.mp hrun
  simp only [Bool.and_eq_true, decide_eq_true_eq] at he
  obtain ⟨⟨e1, e2⟩, e3⟩ := he
  have hne : ∀ e ∈ forkBatch, e.2 ≠ [] := by decide
  refine ⟨forkEnv, forkText, forkFile, sub, E, _, s, forkBatch, forkReports, fork_text, fork_fine, fork_some,
    fork_noDoubles, fork_noneAll, fork_oneEach, hsub, hE, progExecs_sound _ (.nil _) hx, e2, e1, e3, ?_, ?_, ?_⟩
  · have key : ∀ e ∈ forkBatch, (∀ a ∈ fourPatterns, (forkKey a).length ≤ 8 * e.2.length) ∧ identityOf e ≠ none := by
      decide +kernel
    exact fun e he => ⟨fork_long _ (hne e he) (key e he).1, (key e he).2⟩
  · obtain ⟨e, he, a, ha, hk, hd⟩ : ∃ e ∈ forkBatch, ∃ a ∈ fourPatterns, forkKey a <+: bitsOf e.2 ∧
        identityOf e = some "urn:epc:id:sgtin:0614141.812346.6790".toList ∧
        "urn:epc:id:sgtin:0614141.812346.6790".toList ∉ (mapGet forkReports a.1).getD [] := by decide +kernel
    exact ⟨e, he, a.1, _, hd.1, (fork_due _ (hne e he) _).mpr ⟨a, ha, rfl, hk⟩, hd.2⟩
  · refine ⟨"http://c".toList, "urn:epc:id:sgtin:0614142.812346.6791".toList, _, rfl, by decide +kernel, ?_⟩
    rintro ⟨e, he, hi, hd⟩
    rw [fork_due _ (hne e he)] at hd
    have key : ∀ e ∈ forkBatch, identityOf e = some "urn:epc:id:sgtin:0614142.812346.6791".toList →
        ¬ ∃ a ∈ fourPatterns, a.1 = "http://c".toList ∧ forkKey a <+: bitsOf e.2 := by decide +kernel
    exact key e he hi hd

end Gosstrak
