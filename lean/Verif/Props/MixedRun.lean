import Verif.Proofs.MixedRun
import Verif.Props.Csv

/-! # C99: the whole program on files with patterns of all standards and tags of all lengths -/
namespace Gosstrak

variable {F : Type} {env : FcEnv} {fl : Floats F}

/-- C99: on a file without forks, whatever was searched before, by whichever engines and for whichever tags, a
    search of the factory ends the process exactly if it goes through an engine that the tag ends, and otherwise
    answers as the selected engine does. -/
theorem C99_search (x : Binutil) (hx : x.Ok) (records : List (List Str)) (hf : FileFine records)
    (hne : ∃ u t f, FileGives records u t f) (hn : PatNoForks records) :
    ∃ sub, loadRecords records = some sub ∧ ∀ o1 o2 o3 : Subs, o1.Perm sub → o2.Perm sub → o3.Perm sub →
      ∃ E, newEngines x.encoder sub o1 o2 o3 = some E ∧
        ∀ {can : List EngineName → EngineName → Prop} {events : List ReadEvent} {results : List SearchResult}
          {E' : Engines}, Answered (enginesAnswer translate can) E events results E' →
          ∀ (e : ReadEvent) (others : List EngineName) (selected : EngineName),
            (∃ r, FactorySearch translate e selected E' others r) ∧
            ∀ r, FactorySearch translate e selected E' others r →
              (r = none ↔ ∃ n ∈ selected :: others, EndsIn records e n) ∧
              ∀ q E'', r = some (q, E'') → GivesAnswer records e q selected := by
  obtain ⟨sub, l1, hb⟩ := mixedBehind x hx records hf
  refine ⟨sub, l1, fun o1 o2 o3 p1 p2 p3 => ?_⟩
  obtain ⟨E, e1, hE⟩ := mixedEngines_new hb hne p1 p2 p3
  refine ⟨E, e1, fun ha e others selected => ⟨factorySearch_total _ _ _ _ _, fun r hr => ?_⟩⟩
  obtain ⟨a, b⟩ := mixed_factory hb hne hn hr (mixed_answered hb hne hn ha hE).1
  exact ⟨a, fun q E'' h => (b q E'' h).2⟩

section
variable {x : Binutil} {records : List (List Str)} {sub : Subs}

/-- who is reported if no two URIs have patterns that select the same tags -/
theorem MixedBehind.exact (hb : MixedBehind x records sub) (hr : NoDoubles records) {order : Subs}
    (hp : order.Perm sub) (k u : Str) :
    (k, u) ∈ toByteSubscriptions x.encoder order ↔ ∃ t f, FileGives records u t f ∧ keyOf x t f = k := by
  rw [← hb.subscribes hp]
  refine (C11_exact x.encoder order order (List.Perm.refl _) fun k u v hu hv => ?_).2 k u
  obtain ⟨t, f, a, rfl⟩ := (hb.subscribes hp u k).mp hu
  obtain ⟨t', f', a', b'⟩ := (hb.subscribes hp v _).mp hv
  exact hr u v t f t' f' a a' ((key_of_same x hb.ok (hb.known a) (hb.known a')).mpr b'.symm)

/-- the URIs of an answer of a byte engine, on such a file -/
def Reported (x : Binutil) (records : List (List Str)) (id : List Byte) (uris : List Str) : Prop :=
  ReportsFrom (fun k u => ∃ t f, FileGives records u t f ∧ keyOf x t f = k) id uris

theorem MixedBehind.reported (hb : MixedBehind x records sub) (hr : NoDoubles records) {order : Subs}
    (hp : order.Perm sub) {id : List Byte} {uris : List Str}
    (h : ReportsInKeyOrder (toByteSubscriptions x.encoder order) id uris) : Reported x records id uris := by
  obtain ⟨hits, a, b, c⟩ := h
  exact ⟨hits, a, fun k u => by rw [b, hb.exact hr hp], c⟩

/-- an answer of the list or the trie -/
theorem still_uris (hb : MixedBehind x records sub) (hne : ∃ u t f, FileGives records u t f)
    (hr : NoDoubles records) (hw : NoneAll records) {E : Engines} (hE : StillEngines x sub E) {e : ReadEvent}
    {n : EngineName} (hleg : n ≠ .legacy) (hspl : n ≠ .splay) {q : SearchResult} {E' : Engines}
    (h : EngineSearch translate E e n (some (q, E'))) :
    e.2 ≠ [] ∧ ∃ uris, Reported x records e.2 uris ∧ finishSearch translate e.1 e.2 uris = some q := by
  generalize hres : some (q, E') = res at h
  cases h with
  | legacy => exact absurd rfl hleg
  | list =>
    obtain ⟨o, ho, eo⟩ := hE.list
    obtain ⟨c1, c2⟩ := C96_list x.encoder o (fun k u h => hb.bits ho h) translate e.1 e.2
    obtain ⟨q', h1, h2⟩ := Option.map_eq_some_iff.mp hres.symm
    cases h2
    rw [eo] at h1
    have hs : ¬ TagTooShort (toByteSubscriptions x.encoder o) e.2 := fun h => by rw [c1 h] at h1; cases h1
    obtain ⟨uris, h3, h4⟩ := c2 hs
    exact ⟨fun h => hs ((hb.short ho hne _).mpr (Or.inl h)), uris, hb.reported hr ho h3, h4 ▸ h1⟩
  | patricia =>
    obtain ⟨o, ho, eo⟩ := hE.patricia
    obtain ⟨c1, c2⟩ := C96_patricia x.encoder o (hb.uris ho) (fun k u h => hb.bits ho h) translate e.1 e.2
    obtain ⟨q', h1, h2⟩ := Option.map_eq_some_iff.mp hres.symm
    cases h2
    rw [eo] at h1
    have hid : e.2 ≠ [] := fun h => by rw [c1 (Or.inl h)] at h1; cases h1
    obtain ⟨uris, ⟨hits, a, b, c⟩, h4⟩ := c2 hid fun h => by rw [c1 (Or.inr h)] at h1; cases h1
    refine ⟨hid, uris, hb.reported hr ho ⟨hits, a, fun k u => ?_, c⟩, h4 ▸ h1⟩
    rw [b, List.mem_filter, decide_eq_true_iff]
    refine ⟨fun h => ⟨h.1.1, h.2⟩, fun h => ⟨⟨h.1, ?_⟩, h.2⟩⟩
    obtain ⟨t, f, hg, rfl⟩ := hb.mem ho h.1
    exact (hb.root ho hg).mpr (hw u t f hg)
  | splay => exact absurd rfl hspl

/-- an answer of one of the three byte engines -/
theorem mixed_uris (hb : MixedBehind x records sub) (hne : ∃ u t f, FileGives records u t f)
    (hr : NoDoubles records) (hw : NoneAll records) {E : Engines} (hE : MixedEngines x sub E) {e : ReadEvent}
    {n : EngineName} (hleg : n ≠ .legacy) {q : SearchResult} {E' : Engines}
    (h : EngineSearch translate E e n (some (q, E'))) :
    e.2 ≠ [] ∧ ∃ uris, Reported x records e.2 uris ∧ finishSearch translate e.1 e.2 uris = some q := by
  by_cases hspl : n ≠ .splay
  · exact still_uris hb hne hr hw hE.toStillEngines hleg hspl h
  generalize hres : some (q, E') = res at h
  cases h with
  | legacy => exact absurd rfl hleg
  | list => exact absurd (by simp) hspl
  | patricia => exact absurd (by simp) hspl
  | splay =>
    obtain ⟨o, ho, hst⟩ := hE.splay
    obtain ⟨c1, c2⟩ := sstores_any hst e.2
    obtain ⟨p, h1, h2⟩ := Option.map_eq_some_iff.mp hres.symm
    cases h2
    unfold SNode.searchEngine at h1
    have hs : ¬ TagTooShort (toByteSubscriptions x.encoder o) e.2 := fun h => by
      rw [c1 h] at h1; cases h1
    obtain ⟨uris, t', h3, h4, -⟩ := c2 hs
    rw [h3] at h1
    obtain ⟨q', h5, h6⟩ := Option.map_eq_some_iff.mp h1
    subst h6
    exact ⟨fun h => hs ((hb.short ho hne _).mpr (Or.inl h)), uris, hb.reported hr ho h4, h5⟩

/-- an answer of the factory with one of the three byte engines selected -/
theorem mixed_factory_uris (hb : MixedBehind x records sub) (hne : ∃ u t f, FileGives records u t f)
    (hn : PatNoForks records) (hr : NoDoubles records) (hw : NoneAll records) {e : ReadEvent} {sel : EngineName}
    (hleg : sel ≠ .legacy) {E : Engines} {others : List EngineName} {r : Option (SearchResult × Engines)}
    (h : FactorySearch translate e sel E others r) (hE : MixedEngines x sub E) : ∀ q E', r = some (q, E') →
    e.2 ≠ [] ∧ ∃ uris, Reported x records e.2 uris ∧ finishSearch translate e.1 e.2 uris = some q := by
  induction h with
  | selected h =>
    rintro q E' rfl
    exact mixed_uris hb hne hr hw hE hleg h
  | other h _ ih => exact ih ((mixed_engine hb hne hn hE h).2 _ _ rfl).1
  | panic h => intro q E' h; cases h

/-- the URIs reported are those the tag is due to, as often as they have patterns for it -/
theorem reported_due (hb : MixedBehind x records sub) {id : List Byte} (hid : id ≠ []) {uris : List Str}
    (h : Reported x records id uris) (u : Str) :
    (u ∈ uris ↔ DueIn records id u) ∧ (∃ l, DueList records id u l) ∧
      ∀ l, DueList records id u l → uris.count u = l.length := by
  obtain ⟨hits, k1, k2, rfl⟩ := h
  have hhit : ∀ k u, (k, u) ∈ hits ↔ ∃ t f, FileGives records u t f ∧ keyOf x t f = k ∧ PatSelects t f id := by
    intro k u
    rw [k2]
    constructor
    · rintro ⟨⟨t, f, a, rfl⟩, c⟩
      exact ⟨t, f, a, rfl, ((known_key x hb.ok (hb.known a)).2 id hid).mp c⟩
    · rintro ⟨t, f, a, rfl, c⟩
      exact ⟨⟨t, f, a, rfl⟩, ((known_key x hb.ok (hb.known a)).2 id hid).mpr c⟩
  refine ⟨?_, ?_⟩
  · rw [List.mem_map]
    constructor
    · rintro ⟨⟨k, u'⟩, hk, rfl⟩
      obtain ⟨t, f, a, -, c⟩ := (hhit k u').mp hk
      exact ⟨t, f, a, c⟩
    · rintro ⟨t, f, a, c⟩
      exact ⟨(keyOf x t f, u), (hhit _ u).mpr ⟨t, f, a, rfl, c⟩, rfl⟩
  · have hkn : ((hits.filter fun p => decide (p.2 = u)).map Prod.fst).Nodup :=
      (k1.imp fun h => by rintro rfl; exact List.lt_irrefl _ h : List.Nodup _).sublist
        (List.filter_sublist.map _)
    obtain ⟨d1, d2⟩ := due_list_keys x hb.ok hb.fine (id := id) (u := u) _ hkn fun k => by
      rw [← hhit, List.mem_map]
      constructor
      · rintro ⟨⟨k', u'⟩, h, rfl⟩
        rw [List.mem_filter, decide_eq_true_iff] at h
        obtain ⟨a, rfl⟩ := h
        exact a
      · intro h
        exact ⟨(k, u), List.mem_filter.mpr ⟨h, by simp⟩, rfl⟩
    refine ⟨d1, fun l hd => ?_⟩
    rw [← d2 l hd, List.length_map, List.count_eq_countP, List.countP_map, List.countP_eq_length_filter]
    congr 2
    funext p
    simp [Bool.beq_eq_decide_eq]

/-- what one answer adds to what a destination gets -/
theorem mixed_owed {e : ReadEvent} {uris : List Str} {q : SearchResult}
    (hq : finishSearch translate e.1 e.2 uris = some q) (d : Str) : (if q.err then [] else List.replicate (q.reportURIs.count d) q.pureIdentity) =
      (identityOf e).toList.flatMap (List.replicate (uris.count d)) := by
  unfold finishSearch at hq
  split at hq
  · rename_i h0
    cases hq
    rw [List.length_eq_zero_iff.mp h0]
    cases identityOf e <;> rfl
  · unfold identityOf
    cases htr : translate e.1 e.2 with
    | none => rw [htr] at hq; cases hq
    | some p =>
      rw [htr] at hq
      obtain ⟨i, b⟩ := p
      cases hq
      cases b
      · simp
      · rfl

/-- If the answers report the URIs that patterns of the file give, each destination gets what is due to it. -/
theorem delivered_by (hb : MixedBehind x records sub) {σ : Type} {ans : AnswerRel σ} {Inv : σ → Prop}
    (hstep : ∀ {E e q E'}, ans E e (some (q, E')) → Inv E → Inv E' ∧ e.2 ≠ [] ∧
      ∃ uris, Reported x records e.2 uris ∧ finishSearch translate e.1 e.2 uris = some q)
    {E E' : σ} {batch : List ReadEvent} {results : List SearchResult}
    (h : Answered ans E batch results E') (hE : Inv E) : Delivered records (batch, collectReports results) := by
  intro d
  obtain ⟨n, h1, h2⟩ : ∃ n : ReadEvent → Nat, (∀ e ∈ batch, (∃ l, DueList records e.2 d l ∧ n e = l.length) ∧
      (n e = 0 ↔ ¬ DueIn records e.2 d)) ∧
      owed results d = batch.flatMap fun e => (identityOf e).toList.flatMap (List.replicate (n e)) := by
    classical
    refine ⟨fun e => if he : ∃ l, DueList records e.2 d l then he.choose.length else 0, ?_, ?_⟩
    all_goals induction h with
    | nil => simp [owed]
    | @cons E E1 E2 e q es rs h t ih =>
      obtain ⟨hE', hid, uris, hu, hq⟩ := hstep h hE
      obtain ⟨d1, d2, d3⟩ := reported_due hb hid hu d
      have ih := ih hE'
      have hcount : uris.count d = if he : ∃ l, DueList records e.2 d l then he.choose.length else 0 := by
        rw [dif_pos d2]; exact d3 _ d2.choose_spec
      first
      | intro e' he'
        rcases List.mem_cons.mp he' with rfl | he'
        · dsimp only
          rw [← hcount, List.count_eq_zero, d1]
          exact ⟨⟨_, d2.choose_spec, d3 _ d2.choose_spec⟩, Iff.rfl⟩
        · exact ih e' he'
      | rw [List.flatMap_cons, ← ih]
        dsimp only
        rw [← hcount, ← mixed_owed hq d]
        rfl
  have h5 := C61_collected results d
  refine ⟨?_, n, fun e he => (h1 e he).1, ?_⟩
  · have hnil : owed results d = [] ↔ ∀ e ∈ batch, identityOf e ≠ none → ¬ DueIn records e.2 d := by
      rw [h2, List.flatMap_eq_nil_iff]
      refine forall₂_congr fun e he => ?_
      rw [← (h1 e he).2]
      cases identityOf e with
      | none => simp
      | some i => simp
    dsimp only
    rw [h5, ← hnil]
    by_cases h0 : owed results d = []
    · rw [if_pos h0]; exact ⟨fun _ => h0, fun _ => rfl⟩
    · rw [if_neg h0]; exact ⟨fun h => (by cases h), fun h => absurd h h0⟩
  · dsimp only
    rw [h5, ← h2]
    split
    · rename_i h; rw [h]; rfl
    · rfl

theorem mixed_delivered (hb : MixedBehind x records sub) (hne : ∃ u t f, FileGives records u t f)
    (hn : PatNoForks records) (hr : NoDoubles records) (hw : NoneAll records)
    {can : List EngineName → EngineName → Prop} (hcan : ∀ o s, can o s → s ≠ .legacy) {E E' : Engines}
    {batch : List ReadEvent} {results : List SearchResult}
    (h : Answered (enginesAnswer translate can) E batch results E') (hE : MixedEngines x sub E) :
    Delivered records (batch, collectReports results) := by
  refine delivered_by hb (Inv := MixedEngines x sub) ?_ h hE
  rintro E e q E' ⟨o, sel, hc, h⟩ hE
  exact ⟨((mixed_factory hb hne hn h hE).2 _ _ rfl).1,
    mixed_factory_uris hb hne hn hr hw (hcan _ _ hc) h hE _ _ rfl⟩

end

/-- C99: if moreover no two URIs have patterns that select the same tags and no pattern selects all tags that any
    pattern selects, the list, the trie and the splay tree answer every tag that they answer alike. -/
theorem C99_agree (x : Binutil) (hx : x.Ok) (records : List (List Str)) (hf : FileFine records)
    (hne : ∃ u t f, FileGives records u t f) (hn : PatNoForks records) (hr : NoDoubles records)
    (hw : NoneAll records) :
    ∃ sub, loadRecords records = some sub ∧ ∀ o1 o2 o3 p1 p2 p3 : Subs, o1.Perm sub → o2.Perm sub → o3.Perm sub →
      p1.Perm sub → p2.Perm sub → p3.Perm sub → ∃ E D, newEngines x.encoder sub o1 o2 o3 = some E ∧
        newEngines x.encoder sub p1 p2 p3 = some D ∧
        ∀ {can : List EngineName → EngineName → Prop} {es es' : List ReadEvent} {rs rs' : List SearchResult}
          {E' D' : Engines}, Answered (enginesAnswer translate can) E es rs E' →
          Answered (enginesAnswer translate can) D es' rs' D' →
          ∀ (e : ReadEvent) (o o' : List EngineName) (s s' : EngineName), s ≠ .legacy → s' ≠ .legacy →
            ∀ q q' E'' D'', FactorySearch translate e s E' o (some (q, E'')) →
              FactorySearch translate e s' D' o' (some (q', D'')) → q = q' := by
  obtain ⟨sub, l1, hb⟩ := mixedBehind x hx records hf
  refine ⟨sub, l1, fun o1 o2 o3 p1 p2 p3 h1 h2 h3 g1 g2 g3 => ?_⟩
  obtain ⟨E, e1, hE⟩ := mixedEngines_new hb hne h1 h2 h3
  obtain ⟨D, d1, hD⟩ := mixedEngines_new hb hne g1 g2 g3
  refine ⟨E, D, e1, d1, fun ha ha' e o o' s s' hs hs' q q' E'' D'' hq hq' => ?_⟩
  obtain ⟨-, us, a, b⟩ := mixed_factory_uris hb hne hn hr hw hs hq (mixed_answered hb hne hn ha hE).1 _ _ rfl
  obtain ⟨-, us', a', b'⟩ := mixed_factory_uris hb hne hn hr hw hs' hq' (mixed_answered hb hne hn ha' hD).1 _ _ rfl
  rw [reportsFrom_unique a a'] at b
  rw [b] at b'
  exact Option.some.inj b'

/-- The whole program, for any property of the engines that is kept by every search and any tags for which no
    search panics then. -/
theorem prog_safe (hfl : fl.Lawful) {sub : Subs} {E : Engines} {P : EngineName → Prop} (hP : P .list)
    {Inv : Engines → Prop} {Good : ReadEvent → Prop} {D : List ReadEvent × List (Str × List Str) → Prop}
    (hE : Inv E)
    (hstep : ∀ {E e sel o r}, Inv E → P sel → FactorySearch translate e sel E o r →
      (Good e → r ≠ none) ∧ ∀ q E', r = some (q, E') → Inv E')
    (hD : ∀ {E E' batch results}, Inv E → Answered (enginesAnswer translate fun _ m => P m) E batch results E' →
      D (batch, collectReports results))
    (hd : env.headers.Distinct) {flag : Option Int} {ls : List ProgLabel} {s : Prog F}
    (h : ProgRun env (Config.code fl) translate (progStart (Config.code fl) sub E flag) ls s)
    (hch : ∀ m : EngineName, m.text ∈ s.chosen → P m)
    {ms : List LlrpMessage} {as : List LlrpAction} {rest : List Byte} {batches : List (List ReadEvent)}
    (hm : ∀ m ∈ ms, m.Fits) (ha : Answers env.headers ms as) (hr0 : readMessage rest = none)
    (hbytes : arrivedIn (fcMoves ls) = ms.flatMap LlrpMessage.wire ++ rest) (heof : .eof ∉ fcMoves ls)
    (hdec : (reportBodies as).map env.decode = batches.map some)
    (hsafe : ∀ b ∈ batches, ∀ e ∈ b, Good e) :
    s.fc.ended = none ∧ s.fc.written <+: repliesTo 0#32 as ∧ s.fc.done.map Prod.fst <+: batches ∧
      (∀ p ∈ s.fc.done, D p) ∧
      (s.AtRest env (Config.code fl) translate →
        s.fc.written = repliesTo 0#32 as ∧ s.fc.done.map Prod.fst = batches ∧
          World.AtRest (Config.code fl) s.world) := by
  have hinv : ∀ {E E' : Engines} {batch results},
      Answered (enginesAnswer translate fun _ m => P m) E batch results E' → Inv E → Inv E' := by
    intro E E' batch results hA
    induction hA with
    | nil => exact id
    | cons h _ ih =>
      obtain ⟨o, sel, hc, h⟩ := h
      exact fun hE => ih ((hstep hE hc h).2 _ _ rfl)
  have hcol : ∀ {E E' : Engines} {l}, Collected (enginesAnswer translate fun _ m => P m) E l E' → Inv E →
      ∀ p ∈ l, D p := by
    intro E E' l hC
    induction hC with
    | nil => simp
    | cons h _ ih =>
      intro hE p hp
      rcases List.mem_cons.mp hp with rfl | hp
      · exact hD hE h
      · exact ih (hinv h hE) p hp
  obtain ⟨ls', E0, h1, h2, h3, h4⟩ := prog_refines hfl (code_names fl) ⟨.list, hP⟩ h hch
  rw [← h2] at hbytes
  have hloop : llrpLoop env.headers (arrivedIn ls') = (as, .waiting rest) := by
    rw [hbytes, C60_aligned hd hm ha, waiting_short hr0]
    simp
  have hall : ∀ e ∈ batches.flatten, Good e := by
    intro e he
    obtain ⟨b, hb', he'⟩ := List.mem_flatten.mp he
    exact hsafe b hb' e he'
  obtain ⟨taken, t1, t2, t3, -, y, t4⟩ := C90_in_order h1
  rw [hloop] at t1
  obtain ⟨more, rfl⟩ := t1
  have hpre : ({ s.fc with factory := E0 } : Fc Engines).batches <+: batches := by
    refine map_some_prefix (t3.trans ?_)
    rw [← hdec, reportBodies_append, List.map_append]
    exact List.prefix_append _ _
  have hdone : s.fc.done.map Prod.fst <+: batches := (List.prefix_append _ _).trans hpre
  refine ⟨?_, ?_, hdone, hcol t4 hE, fun hrest => ?_⟩
  · apply Classical.byContradiction
    intro hend
    rcases C90_why h1 hend with h' | ⟨n, h'⟩ | ⟨body, h', h''⟩ | ⟨bs, h', before, e, after, results, y, g1, g2, g3⟩
    · exact heof (h3.mp h')
    · rw [hloop] at h'; cases h'
    · rw [hloop] at h'
      have : none ∈ batches.map some := by
        rw [← hdec]; exact List.mem_map.mpr ⟨body, h', h''⟩
      obtain ⟨_, -, h0⟩ := List.mem_map.mp this
      cases h0
    · rw [hloop, hdec] at h'
      obtain ⟨more, rfl⟩ := map_some_prefix h'
      obtain ⟨o, sel, hsel, g4⟩ := g3
      exact (hstep (hinv g2 hE) hsel g4).1 (hall e (by rw [List.flatten_append, g1]; simp)) rfl
  · rw [show s.fc.written = repliesTo 0#32 taken from t2]
    unfold repliesTo
    rw [List.filterMap_append]
    exact List.prefix_append _ _
  · obtain ⟨k1, k2, k3⟩ := code_engines fl
    obtain ⟨g1, g2⟩ := prog_rest hfl (code_names fl) k1 k2 k3 h hrest h4
    obtain ⟨r1, -, -, -, r2, r3, -⟩ := C90_messages h1 hd hm ha hr0 hbytes (fun h' => heof (h3.mp h')) hdec (by
      intro before e after results y he hA
      have hsafe' : ∀ {o sel r}, P sel → FactorySearch translate e sel y o r → r ≠ none := fun hsel hs =>
        (hstep (hinv hA hE) hsel hs).1 (hall e (by rw [he]; simp))
      refine ⟨fun ⟨o, sel, hsel, hs⟩ => hsafe' hsel hs rfl, ?_⟩
      obtain ⟨r, hs⟩ := factorySearch_total translate e .list [] y
      cases r with
      | none => exact absurd rfl (hsafe' hP hs)
      | some r => exact ⟨r, [], .list, hP, hs⟩) (g2 _)
    exact ⟨r2, r3, g1 r1⟩

/-- C99: the whole program from the text of the file. As long as the reader sends whole messages and no tag ends
    any of the four engines, the program has not ended, has written the first of the replies owed and has
    delivered the first of the batches sent, as long as the legacy engine was not selected for an answer. At rest
    it has written all replies and delivered all batches. -/
theorem C99_program (hfl : fl.Lawful) (x : Binutil) (hx : x.Ok) (text : Str) (records : List (List Str))
    (htext : CsvText records (lineEnds text)) (hf : FileFine records)
    (hne : ∃ u t f, FileGives records u t f) (hn : PatNoForks records) (hr : NoDoubles records)
    (hw : NoneAll records) (hd : env.headers.Distinct) :
    ∃ sub, loadFile text = some sub ∧ ∀ o1 o2 o3 : Subs, o1.Perm sub → o2.Perm sub → o3.Perm sub →
      ∃ E, newEngines x.encoder sub o1 o2 o3 = some E ∧
      ∀ {flag : Option Int} {ls : List ProgLabel} {s : Prog F},
        ProgRun env (Config.code fl) translate (progStart (Config.code fl) sub E flag) ls s →
        EngineName.legacy.text ∉ s.chosen →
        ∀ {ms : List LlrpMessage} {as : List LlrpAction} {rest : List Byte} {batches : List (List ReadEvent)},
        (∀ m ∈ ms, m.Fits) → Answers env.headers ms as → readMessage rest = none →
        arrivedIn (fcMoves ls) = ms.flatMap LlrpMessage.wire ++ rest → .eof ∉ fcMoves ls →
        (reportBodies as).map env.decode = batches.map some →
        (∀ b ∈ batches, ∀ e ∈ b, ∀ n, ¬ EndsIn records e n) →
        s.fc.ended = none ∧ s.fc.written <+: repliesTo 0#32 as ∧ s.fc.done.map Prod.fst <+: batches ∧
          (∀ p ∈ s.fc.done, Delivered records p) ∧
          (s.AtRest env (Config.code fl) translate →
            s.fc.written = repliesTo 0#32 as ∧ s.fc.done.map Prod.fst = batches ∧
              World.AtRest (Config.code fl) s.world) := by
  obtain ⟨sub, l1, hb⟩ := mixedBehind x hx records hf
  refine ⟨sub, by rw [loadFile_of_text htext, l1], fun o1 o2 o3 p1 p2 p3 => ?_⟩
  obtain ⟨E, e1, hE⟩ := mixedEngines_new hb hne p1 p2 p3
  refine ⟨E, e1, ?_⟩
  intro flag ls s h hleg ms as rest batches hm ha hr0 hbytes heof hdec hsafe
  refine prog_safe hfl (P := fun m => m ≠ .legacy) (by simp) (Inv := MixedEngines x sub)
    (Good := fun e => ∀ n, ¬ EndsIn records e n) hE ?_ ?_ hd h (fun m hm => by rintro rfl; exact hleg hm) hm ha hr0
    hbytes heof hdec hsafe
  · intro E e sel o r hE _ hs
    obtain ⟨a, b⟩ := mixed_factory hb hne hn hs hE
    exact ⟨fun hg h0 => by obtain ⟨n, -, hend⟩ := a.mp h0; exact hg n hend, fun q E' h => (b q E' h).1⟩
  · intro E E' batch results hE hA
    exact mixed_delivered hb hne hn hr hw (fun _ _ h => h) hA hE

/-- C99: a tag that ends each engine that was selected for an answer ends the program, whatever comes before and
    after it. -/
theorem C99_killer (hfl : fl.Lawful) (x : Binutil) (hx : x.Ok) (text : Str) (records : List (List Str))
    (htext : CsvText records (lineEnds text)) (hf : FileFine records)
    (hne : ∃ u t f, FileGives records u t f) (hn : PatNoForks records) :
    ∃ sub, loadFile text = some sub ∧ ∀ o1 o2 o3 : Subs, o1.Perm sub → o2.Perm sub → o3.Perm sub →
      ∃ E, newEngines x.encoder sub o1 o2 o3 = some E ∧
      ∀ {flag : Option Int} {ls : List ProgLabel} {s : Prog F},
        ProgRun env (Config.code fl) translate (progStart (Config.code fl) sub E flag) ls s →
        s.AtRest env (Config.code fl) translate →
        ∀ {body : List Byte} {batch : List ReadEvent} {e : ReadEvent},
          body ∈ reportBodies (llrpLoop env.headers (arrivedIn (fcMoves ls))).1 → env.decode body = some batch →
          e ∈ batch → (∃ m, EndsIn records e m) → (∀ m : EngineName, m.text ∈ s.chosen → EndsIn records e m) →
          s.fc.ended ≠ none := by
  obtain ⟨sub, l1, hb⟩ := mixedBehind x hx records hf
  refine ⟨sub, by rw [loadFile_of_text htext, l1], fun o1 o2 o3 p1 p2 p3 => ?_⟩
  obtain ⟨E, e1, hE⟩ := mixedEngines_new hb hne p1 p2 p3
  refine ⟨E, e1, ?_⟩
  intro flag ls s h hrest body batch e hbody hdec he hsome hk hend
  obtain ⟨ls', E0, h1, h2, h3, h4⟩ := prog_refines hfl (code_names fl) hsome h hk
  obtain ⟨k1, k2, k3⟩ := code_engines fl
  obtain ⟨-, g2⟩ := prog_rest hfl (code_names fl) k1 k2 k3 h hrest h4
  rw [← h2] at hbody
  obtain ⟨taken, hi⟩ := fcInv_run h1
  obtain ⟨c, i1, i2⟩ := hi.consumed
  have e' := i2 s.fc.pending
  obtain ⟨r1, r2, r3⟩ := rest_idle (g2 fun _ _ => True) hend fun _ e _ _ _ => by
    obtain ⟨r, hr⟩ := factorySearch_total translate e .list [] E0
    exact ⟨r, [], .list, trivial, hr⟩
  rw [show arrivedIn ls' = c ++ s.fc.pending from i1] at hbody
  rw [waiting_short r3, List.append_nil] at e'
  rw [e'] at hbody
  have hall := hi.all (by rw [hend]; simp)
  have hbs : ({ s.fc with factory := E0 } : Fc Engines).batches = s.fc.done.map Prod.fst := by
    unfold Fc.batches Fc.underWay
    rw [r1, r2]
    simp
  rw [hbs] at hall
  have hmem : batch ∈ s.fc.done.map Prod.fst := by
    have : some batch ∈ (s.fc.done.map Prod.fst).map some := by
      rw [hall]; exact List.mem_map.mpr ⟨body, hbody, hdec⟩
    obtain ⟨b, hb1, hb2⟩ := List.mem_map.mp this
    cases hb2
    exact hb1
  obtain ⟨y, d1, -⟩ := hi.done
  obtain ⟨results, d2⟩ := collected_answered d1
  obtain ⟨o, sel, hc, hno⟩ := (mixed_answered hb hne hn d2 hE).2 e (List.mem_flatten.mpr ⟨batch, hmem, he⟩)
  exact hno sel List.mem_cons_self hc

/-- C99: a tag that ends the trie because of where it ends, ends inside a pattern and so ends the list and the splay
    tree as well. -/
theorem C99_branch (records : List (List Str)) (hf : FileFine records) (e : ReadEvent) (h : OnBranch records e.2) :
    EndsIn records e .list ∧ EndsIn records e .splay := by
  by_cases hid : e.2 = []
  · exact ⟨Or.inl hid, Or.inl hid⟩
  have hc : CutIn records e.2 := by
    obtain ⟨c, ⟨u, t, f, hg, ha⟩, -⟩ := h
    have hk := gives_known hf hg
    rw [key_asks sampleBinutil sampleBinutil_ok hk] at ha
    refine ⟨u, t, f, hg, (known_cut sampleBinutil sampleBinutil_ok hk _ hid).mp
      ⟨(List.prefix_append _ _).trans ha, Or.inl fun h0 => ?_⟩⟩
    have := ha.length_le
    rw [← h0, List.length_append, List.length_singleton] at this
    omega
  exact ⟨Or.inr (Or.inl hc), Or.inr (Or.inl hc)⟩

/-! ## Cases -/

private def runText : Str :=
  ("http://a,urn:epc:pat:sgtin-96:3.0614141.812345\r\nhttp://b,urn:epc:pat:iso17363:7b.CSQ,urn:epc:pat:iso17365:25S.UN\n" ++
  "\"http://c\",urn:epc:pat:iso17365:7BCSQU3\nhttp://d,urn:epc:pat:iso17365:7BCS1").toList

private def runFile : List (List Str) :=
  [["http://a".toList, "urn:epc:pat:sgtin-96:3.0614141.812345".toList],
   ["http://b".toList, "urn:epc:pat:iso17363:7b.CSQ".toList, "urn:epc:pat:iso17365:25S.UN".toList],
   ["http://c".toList, "urn:epc:pat:iso17365:7BCSQU3".toList],
   ["http://d".toList, "urn:epc:pat:iso17365:7BCS1".toList]]

private def fivePatterns : List (Str × Str × List Str) :=
  [("http://a".toList, "sgtin-96".toList, ["3".toList, "0614141".toList, "812345".toList]),
   ("http://b".toList, "iso17363".toList, ["7B".toList, "CSQ".toList]),
   ("http://b".toList, "iso17365".toList, ["25S".toList, "UN".toList]),
   ("http://c".toList, "iso17365".toList, ["7BCSQU3".toList]),
   ("http://d".toList, "iso17365".toList, ["7BCS1".toList])]

example : CsvText runFile (lineEnds runText) := by rw [← C95_reads]; decide +kernel

private theorem run_patterns {r : List Str} (hr : r ∈ runFile) {p : Str} (hp : p ∈ r.tail) {t : Str}
    {f : List Str} (h : PatternOf p t f) : (((r.head?).map toLower).getD [], t, f) ∈ fivePatterns := by
  have key : ∀ r ∈ runFile, ∀ p ∈ r.tail,
      (match splitOn ':' (trimPrefix p "urn:epc:pat:".toList) with
      | [t, g] => decide ((((r.head?).map toLower).getD [], t, splitOn '.' (toUpper g)) ∈ fivePatterns)
      | _ => true) = true := by decide +kernel
  obtain ⟨g, h1, rfl⟩ := patternOf_computed h
  have := key r hr p hp
  rw [h1] at this
  exact of_decide_eq_true this

private theorem run_known {u t : Str} {f : List Str} (h : (u, t, f) ∈ fivePatterns) : PatKnown t f := by
  have wf : Scheme.sgtin.Encodable ["3".toList, "0614141".toList, "812345".toList] := by
    unfold Scheme.Encodable; decide +kernel
  unfold fivePatterns at h
  simp only [List.mem_cons, List.not_mem_nil, or_false, Prod.mk.injEq] at h
  rcases h with ⟨-, rfl, rfl⟩ | ⟨-, rfl, rfl⟩ | ⟨-, rfl, rfl⟩ | ⟨-, rfl, rfl⟩ | ⟨-, rfl, rfl⟩
  · exact Or.inl ⟨.sgtin, rfl, wf⟩
  · exact Or.inr (Or.inl ⟨_, .container _ (by decide) (by decide) (by decide +kernel)⟩)
  · exact Or.inr (Or.inl ⟨_, .item _ (by decide) (by decide) (by decide +kernel)⟩)
  · exact Or.inr (Or.inl ⟨_, .item _ (by decide) (by decide) (by decide +kernel)⟩)
  · exact Or.inr (Or.inl ⟨_, .item _ (by decide) (by decide) (by decide +kernel)⟩)

private theorem run_fine : FileFine runFile := by
  intro r hr
  refine ⟨?_, fun p hp _ t f h => run_known (run_patterns hr hp h)⟩
  have : ∀ r ∈ runFile, r ≠ [] := by decide
  exact this r hr

private theorem run_gives (u t : Str) (f : List Str) : FileGives runFile u t f ↔ (u, t, f) ∈ fivePatterns := by
  constructor
  · rintro ⟨-, r, hr, hu, p, hp, -, hof⟩
    have := run_patterns hr hp hof
    rwa [hu] at this
  · have key : ∀ a ∈ fivePatterns, "http".toList <+: a.1 ∧ ∃ r ∈ runFile, (r.head?).map toLower = some a.1 ∧
        ∃ p ∈ r.tail, "urn:epc:pat:".toList <+: toLower p ∧
          ∃ g ∈ [(splitOn ':' (trimPrefix p "urn:epc:pat:".toList)).getLast?.getD []],
            splitOn ':' (trimPrefix p "urn:epc:pat:".toList) = [a.2.1, g] ∧ splitOn '.' (toUpper g) = a.2.2 := by
      decide +kernel
    intro h
    obtain ⟨h1, r, h2, h3, p, h4, h5, g, -, h6, h7⟩ := key _ h
    refine ⟨h1, r, h2, h3, p, h4, h5, trimPrefix p "urn:epc:pat:".toList, g, ?_, ?_, ?_⟩
    · rw [stripped_iff]
    · rw [← splitOn_iff]; exact h6
    · rw [← splitOn_iff]; exact h7

private def runKey (a : Str × Str × List Str) : Str := keyOf sampleBinutil a.2.1 a.2.2

private theorem run_within {u u' t t' : Str} {f f' : List Str} (h : FileGives runFile u t f)
    (h' : FileGives runFile u' t' f') : PatWithin t f t' f' ↔ runKey (u', t', f') <+: runKey (u, t, f) :=
  key_of_within sampleBinutil sampleBinutil_ok (gives_known run_fine h) (gives_known run_fine h')

-- test: the conditions of the theorems, with a pattern narrower than another
example : (∃ u t f, FileGives runFile u t f) ∧ PatNoForks runFile ∧ NoDoubles runFile ∧ NoneAll runFile ∧
    ∃ p q, PatNarrower p q ∧ FileGives runFile "http://c".toList p.1 p.2 ∧ FileGives runFile "http://b".toList q.1 q.2 := by
  refine ⟨⟨_, _, _, (run_gives _ _ _).mpr List.mem_cons_self⟩, ?_, ?_, ?_, ?_⟩
  · rintro u v w ⟨p1, p2⟩ ⟨a1, a2⟩ ⟨b1, b2⟩ hp ha hb ⟨h1, h2⟩ ⟨h3, h4⟩
    rw [run_within ha hp] at h1
    rw [run_within hp ha] at h2
    rw [run_within hb hp] at h3
    rw [run_within hp hb] at h4
    have key : ∀ p ∈ fivePatterns, ∀ a ∈ fivePatterns, runKey p <+: runKey a → ¬ runKey a <+: runKey p →
        ∀ b ∈ fivePatterns, runKey p <+: runKey b → ¬ runKey b <+: runKey p →
        runKey a <+: runKey b ∨ runKey b <+: runKey a := by decide +kernel
    rw [run_within ha hb, run_within hb ha]
    exact (key _ ((run_gives _ _ _).mp hp) _ ((run_gives _ _ _).mp ha) h1 h2 _ ((run_gives _ _ _).mp hb) h3 h4).symm
  · intro u v t f t' f' h h' hs
    have e := (key_of_same sampleBinutil sampleBinutil_ok (gives_known run_fine h) (gives_known run_fine h')).mp hs
    have key : ∀ a ∈ fivePatterns, ∀ b ∈ fivePatterns, runKey a = runKey b → a.1 = b.1 := by decide +kernel
    exact key _ ((run_gives _ _ _).mp h) _ ((run_gives _ _ _).mp h') e
  · intro u t f h
    have key : ∀ a ∈ fivePatterns, ∃ b ∈ fivePatterns, ¬ runKey a <+: runKey b := by decide +kernel
    obtain ⟨b, hb, hne⟩ := key _ ((run_gives _ _ _).mp h)
    exact ⟨b.1, b.2.1, b.2.2, (run_gives _ _ _).mpr hb, fun hw => hne ((run_within ((run_gives _ _ _).mpr hb) h).mp hw)⟩
  · have hc := (run_gives "http://c".toList "iso17365".toList ["7BCSQU3".toList]).mpr (by decide +kernel)
    have hb := (run_gives "http://b".toList "iso17363".toList ["7B".toList, "CSQ".toList]).mpr (by decide +kernel)
    refine ⟨("iso17365".toList, ["7BCSQU3".toList]), ("iso17363".toList, ["7B".toList, "CSQ".toList]),
      ⟨(run_within hc hb).mpr (by decide +kernel), fun h => ?_⟩, hc, hb⟩
    exact absurd ((run_within hb hc).mp h) (by decide +kernel)

private def epcTag : ReadEvent :=
  ([48#8, 0#8], [48#8, 116#8, 37#8, 123#8, 247#8, 25#8, 78#8, 64#8, 0#8, 0#8, 26#8, 133#8])
/-- the tag of container CSQ U 305438, 7BCSQU3054383 -/
private def boxTag : ReadEvent :=
  ([41#8, 169#8], [220#8, 32#8, 211#8, 69#8, 92#8, 240#8, 215#8, 76#8, 248#8, 206#8])
/-- the first bits of the EPC tag -/
private def cutTag : ReadEvent := ([48#8, 0#8], [48#8, 116#8])
/-- the text 7BCS -/
private def forkTag : ReadEvent := ([41#8, 169#8], [220#8, 32#8, 211#8])

private theorem run_cut (id : List Byte) (hid : id ≠ []) :
    CutIn runFile id ↔ ∃ a ∈ fivePatterns, TagEndsInside id (runKey a) := by
  constructor
  · rintro ⟨u, t, f, hg, hc⟩
    exact ⟨(u, t, f), (run_gives _ _ _).mp hg,
      (known_cut sampleBinutil sampleBinutil_ok (gives_known run_fine hg) id hid).mpr hc⟩
  · rintro ⟨⟨u, t, f⟩, ha, hc⟩
    have hg := (run_gives _ _ _).mpr ha
    exact ⟨u, t, f, hg, (known_cut sampleBinutil sampleBinutil_ok (gives_known run_fine hg) id hid).mp hc⟩

private theorem run_safe (e : ReadEvent) (hid : e.2 ≠ []) (hc : ¬ ∃ a ∈ fivePatterns, TagEndsInside e.2 (runKey a))
    (htr : translate e.1 e.2 ≠ none) : ∀ n, ¬ EndsIn runFile e n := by
  rw [← run_cut _ hid] at hc
  have hl : ¬ EndsIn runFile e .list := by
    rintro (h | h | ⟨-, h⟩)
    · exact hid h
    · exact hc h
    · exact htr h
  intro n
  cases n with
  | legacy => exact htr
  | list => exact hl
  | splay => exact hl
  | patricia =>
    rintro (h | h | ⟨-, h⟩)
    · exact hid h
    · exact hl (C99_branch runFile run_fine e h).1
    · exact htr h

-- test: tags of different lengths that end none of the engines
example : (∀ n, ¬ EndsIn runFile epcTag n) ∧ (∀ n, ¬ EndsIn runFile boxTag n) ∧
    (∀ n, ¬ EndsIn runFile ([41#8, 169#8], [255#8]) n) :=
  ⟨run_safe _ (by decide) (by decide +kernel) (by decide +kernel),
    run_safe _ (by decide) (by decide +kernel) (by decide +kernel),
    run_safe _ (by decide) (by decide +kernel) (by decide +kernel)⟩

-- test: a tag that ends all engines but the legacy one, and one that ends only the list and the splay tree
example : EndsIn runFile cutTag .list ∧ EndsIn runFile cutTag .splay ∧ EndsIn runFile cutTag .patricia ∧
    EndsIn runFile forkTag .list ∧ ¬ EndsIn runFile forkTag .patricia ∧ ¬ EndsIn runFile forkTag .legacy := by
  have c1 : CutIn runFile cutTag.2 := (run_cut _ (by decide)).mpr (by decide +kernel)
  have c2 : CutIn runFile forkTag.2 := (run_cut _ (by decide)).mpr (by decide +kernel)
  have asks : ∀ {u t f} (g : Str), FileGives runFile u t f → (Asks t f g ↔ g <+: runKey (u, t, f)) := fun g hg =>
    key_asks sampleBinutil sampleBinutil_ok (gives_known run_fine hg) g
  have htr : translate forkTag.1 forkTag.2 ≠ none := by decide +kernel
  refine ⟨Or.inr (Or.inl c1), Or.inr (Or.inl c1), Or.inr (Or.inl ⟨'0', ?_, ?_⟩), Or.inr (Or.inl c2), ?_, htr⟩
  · obtain ⟨a, ha, hk⟩ : ∃ a ∈ fivePatterns, bitsOf cutTag.2 ++ ['0'] <+: runKey a := by decide +kernel
    exact ⟨a.1, a.2.1, a.2.2, (run_gives _ _ _).mpr ha, (asks _ ((run_gives _ _ _).mpr ha)).mpr hk⟩
  · intro u t f hg
    rw [asks _ hg, asks _ hg]
    have key : ∀ a ∈ fivePatterns, bitsOf cutTag.2 <+: runKey a → bitsOf cutTag.2 ++ ['0'] <+: runKey a := by
      decide +kernel
    exact key _ ((run_gives _ _ _).mp hg)
  · rintro (h | ⟨c, ⟨u, t, f, hg, ha⟩, h⟩ | ⟨-, h⟩)
    · exact absurd h (by decide)
    · have hb := (run_gives "http://b".toList "iso17363".toList ["7B".toList, "CSQ".toList]).mpr (by decide +kernel)
      have hd := (run_gives "http://d".toList "iso17365".toList ["7BCS1".toList]).mpr (by decide +kernel)
      have h1 := (asks _ hb).mp (h _ _ _ hb ((asks _ hb).mpr (by decide +kernel)))
      have h2 := (asks _ hd).mp (h _ _ _ hd ((asks _ hd).mpr (by decide +kernel)))
      have e1 : runKey ("http://b".toList, "iso17363".toList, ["7B".toList, "CSQ".toList]) =
          bitsOf forkTag.2 ++ "010001".toList := by decide +kernel
      have e2 : runKey ("http://d".toList, "iso17365".toList, ["7BCS1".toList]) =
          bitsOf forkTag.2 ++ "110001".toList := by decide +kernel
      rw [e1, List.prefix_append_right_inj] at h1
      rw [e2, List.prefix_append_right_inj] at h2
      have f1 := (List.cons_prefix_cons.mp (show c :: [] <+: '0' :: "10001".toList from h1)).1
      have f2 := (List.cons_prefix_cons.mp (show c :: [] <+: '1' :: "10001".toList from h2)).1
      rw [f1] at f2
      exact absurd f2 (by decide)
    · exact htr h

/-- reports with two tags: the EPC tag and one that the body holds -/
private def runEnv : FcEnv := ⟨someHeaders, fun body => some [epcTag, ([41#8, 169#8], body)]⟩

private def runStart : Option (Prog (Nat × Nat)) :=
  (loadFile runText).bind fun sub => (newEngines sampleBinutil.encoder sub sub sub sub).map fun E =>
    progStart exactCode sub E none

private def searchesFor (body : List Byte) : List ProgOrder :=
  listReady.map .factory ++ [.fc (.arrive (⟨0x043D, 9, body⟩ : LlrpMessage).wire), .fc .read, .fc .hand,
    .factory (.search codeNames)] ++
  [.factory .searchNext, .factory .searchNext, .factory .searchNext, .factory .searchNext, .factory .searchNext,
    .engine .list, .factory .readMatched, .factory .writeMatched, .ret 1000, .factory (.search codeNames),
    .factory .searchNext, .factory .searchNext, .factory .searchNext, .factory .searchNext, .factory .searchNext,
    .engine .list]

-- test: both tags are delivered
example : (runStart.bind fun s => (progExecs runEnv exactCode translate s (searchesFor boxTag.2 ++
    [.factory .readMatched, .factory .writeMatched, .ret 1000, .fc .finish])).map fun p =>
    decide (p.2.chosen = ["List".toList, "List".toList]) && decide (p.2.fc.ended = none) &&
    decide (p.2.fc.done.map Prod.snd = [[("http://a".toList, ["urn:epc:id:sgtin:0614141.812345.6789".toList]),
      ("http://b".toList, ["urn:epc:id:iso17363:7BCSQU3054383".toList]),
      ("http://c".toList, ["urn:epc:id:iso17363:7BCSQU3054383".toList])]])) = some true := by decide +kernel

-- test: the second tag ends inside two patterns and ends the program, and nobody gets the first one
example : (runStart.bind fun s => (progExecs runEnv exactCode translate s (searchesFor forkTag.2)).map fun p =>
    decide (p.2.fc.ended = some .panic) && decide (p.2.fc.done = [])) = some true := by decide +kernel

end Gosstrak
