import Verif.Spec.Engines
import Verif.Props.EndToEnd
import Verif.Props.Legacy
import Verif.Proofs.FcRun

namespace Gosstrak

open SNode

/-- in a well-formed tree every filter can be compared with an ID as long as all its filters -/
theorem nodes_comparable (id : List Byte) (hid : id ≠ []) : ∀ (t : SNode) (P : Str), WF P t →
    (P = [] ∨ ∀ k ∈ chain t, k ≠ []) → (∀ e ∈ content P t, e.1.length ≤ 8 * id.length) →
    ∀ n ∈ nodes t, ∃ f b, n.2 = some f ∧ f.matchID id = some b
  | .nil, _, _, _, _, n, hn => by cases hn
  | .node _ none _ _, _, h, _, _, _, _ => h.elim
  | .node u (some f) m mm, P, h, hP, hlen, n, hn => by
    obtain ⟨h1, h2, h3, h4, h5, h6⟩ := h
    simp only [nodes, List.mem_cons, List.mem_append] at hn
    have hpos : 0 < id.length := List.length_pos_iff.mpr hid
    rcases hn with rfl | hn | hn
    · have hl := hlen (P ++ f.str, u) (by simp [content])
      simp only [List.length_append] at hl
      have hc : Covers f.str P.length id := by
        refine ⟨hl, ?_⟩
        rcases hP with rfl | hP
        · simpa using hpos
        · have : 0 < f.str.length := List.length_pos_iff.mpr (hP f.str (by simp [chain]))
          omega
      have hm := matchID_drop h1 hc
      rw [← h2] at hm
      exact ⟨f, _, rfl, hm⟩
    · exact nodes_comparable id hid m _ h5 (Or.inr h4) (fun e he => hlen e (by simp [content, he])) n hn
    · refine nodes_comparable id hid mm P h6 ?_ (fun e he => hlen e (by simp [content, he])) n hn
      rcases hP with rfl | hP
      · exact Or.inl rfl
      · exact Or.inr fun k hk => hP k (by simp [chain, hk])

theorem search_tree_ne {t t' : SNode} {id : List Byte} {ms : List Str} (ht : t ≠ .nil)
    (h : t.search id = some (ms, t')) : t' ≠ .nil := by
  have hp := search_nodes h
  rintro rfl
  cases t with
  | nil => exact ht rfl
  | node u f m mm =>
    have := hp.length_eq
    simp [nodes] at this

/-- filters nest as the sets of tags do -/
theorem encoder_within (x : Binutil) (hx : x.Ok) {sc sc' : Scheme} {f f' : List Str} {k k' : Str}
    (hw : sc.WellFormed f) (hk : x.encoder sc.typeName f = some k)
    (hw' : sc'.WellFormed f') (hk' : x.encoder sc'.typeName f' = some k') :
    k <+: k' ↔ TagsWithin sc' f' sc f := by
  obtain ⟨a1, -, a2, a3⟩ := encoder_prefix x hx hw hk
  obtain ⟨b1, -, b2, b3⟩ := encoder_prefix x hx hw' hk'
  constructor
  · intro h id hl hh
    exact (a3 id hl).mp (h.trans ((b3 id hl).mpr hh))
  · intro h
    have key : ∀ id : List Byte, id.length = 12 → k' <+: bitsOf id → k <+: bitsOf id := fun id hl hp =>
      (a3 id hl).mpr (h id hl ((b3 id hl).mp hp))
    obtain ⟨id, i1, i2⟩ := exists_id96 b1 b2
    have i3 := key id i1 i2
    rcases Nat.le_total k.length k'.length with hle | hle
    · exact List.prefix_of_prefix_length_le i3 i2 hle
    · obtain ⟨t, ht⟩ := List.prefix_of_prefix_length_le i2 i3 hle
      cases t with
      | nil => rw [← ht, List.append_nil]; exact List.prefix_rfl
      | cons c t =>
        exfalso
        subst ht
        simp only [List.length_append, List.length_cons] at a2
        obtain ⟨c', hc', hne⟩ : ∃ c' : Char, (c' = '0' ∨ c' = '1') ∧ c' ≠ c := by
          by_cases h0 : c = '0'
          · exact ⟨'1', Or.inr rfl, by rw [h0]; decide⟩
          · exact ⟨'0', Or.inl rfl, fun e => h0 e.symm⟩
        obtain ⟨id', j1, j2⟩ := exists_id96 (g := k' ++ [c']) (by
          intro d hd
          rcases List.mem_append.mp hd with hd | hd
          · exact b1 d hd
          · rw [List.mem_singleton] at hd; rw [hd]; exact hc') (by simp; omega)
        have j3 := key id' j1 ((List.prefix_append k' [c']).trans j2)
        have j4 : k' ++ [c] <+: bitsOf id' := List.IsPrefix.trans ⟨t, by simp⟩ j3
        have j5 := (List.prefix_of_prefix_length_le j2 j4 (by simp)).eq_of_length (by simp)
        simp only [List.append_cancel_left_eq, List.cons.injEq, and_true] at j5
        exact hne j5

/-- what is known of the engines built from a file, after any searches for tags of 96 bits -/
structure EnginesFor (x : Binutil) (sub : Subs) (E : Engines) : Prop where
  legacy : E.legacy.Perm sub
  list : ∃ order : Subs, order.Perm sub ∧ E.list = newList x.encoder order
  patricia : ∃ order : Subs, order.Perm sub ∧ E.patricia = newPatricia x.encoder order
  splay : ∃ (order : Subs) (t0 : SNode), order.Perm sub ∧
    SStores t0 (fun k u => (k, u) ∈ toByteSubscriptions x.encoder order) ∧
    E.splay ≠ .nil ∧ (nodes E.splay).Perm (nodes t0) ∧
    (NoForks (fun k u => (k, u) ∈ toByteSubscriptions x.encoder order) →
      SStores E.splay fun k u => (k, u) ∈ toByteSubscriptions x.encoder order)

theorem enginesFor_new {x : Binutil} {sub o1 o2 o3 : Subs} (h1 : o1.Perm sub) (h2 : o2.Perm sub)
    (h3 : o3.Perm sub) (hne : toByteSubscriptions x.encoder o3 ≠ [])
    (hbit : ∀ k u, (k, u) ∈ toByteSubscriptions x.encoder o3 → IsBitStr k) :
    ∃ E, newEngines x.encoder sub o1 o2 o3 = some E ∧ EnginesFor x sub E := by
  obtain ⟨t, e, hs⟩ := sstores_fresh _ (isMap_toByteSubscriptions x.encoder o3) hne hbit
  have e' : newSplay x.encoder o3 = some t := e
  refine ⟨_, by unfold newEngines; rw [e']; rfl, List.Perm.refl _, ⟨o1, h1, rfl⟩, ⟨o2, h2, rfl⟩,
    ⟨o3, t, h3, hs, hs.1, List.Perm.refl _, fun _ => hs⟩⟩

/-- the file behind the engines -/
structure FileBehind (x : Binutil) (records : List (List Str)) (sub : Subs) : Prop where
  ok : x.Ok
  map : IsMap sub
  uris : UrisNonEmpty sub
  mem : ∀ uri pat, (∃ pats, (uri, pats) ∈ sub ∧ pat ∈ pats) ↔
    ∃ sc fields, FileSubscribes records uri sc fields ∧ pat = sc.patternText fields

theorem fileBehind (x : Binutil) (hx : x.Ok) (records : List (List Str)) (hf : FileOk records) :
    ∃ sub, loadRecords records = some sub ∧ FileBehind x records sub := by
  obtain ⟨sub, l1, l2, l3⟩ := C65_loaded records fun r hr => (hf r hr).1
  refine ⟨sub, l1, hx, l2, ?_, loaded_mem hf l2 l3⟩
  rintro ⟨u, pats⟩ he e0
  have := mapGet_of_mem l2 he
  rw [l3] at this
  split at this
  · rename_i hh
    rw [show u = [] from e0] at hh
    exact absurd hh.1 (by decide)
  · cases this

section
variable {x : Binutil} {records : List (List Str)} {sub order : Subs}

theorem FileBehind.subscribes (hb : FileBehind x records sub) (hp : order.Perm sub) (uri k : Str) :
    Subscribes x.encoder order uri k ↔
      ∃ sc fields, FileSubscribes records uri sc fields ∧ x.encoder sc.typeName fields = some k :=
  loaded_subscribes x hb.ok hp hb.mem uri k

theorem FileBehind.covered (hb : FileBehind x records sub) (hp : order.Perm sub) (id : List Byte)
    (hl : id.length = 12) : Covered (toByteSubscriptions x.encoder order) id :=
  file_covered x hb.ok (hb.subscribes hp) id hl

theorem FileBehind.nonempty (hb : FileBehind x records sub) (hp : order.Perm sub)
    (hne : ∃ u sc f, FileSubscribes records u sc f) : toByteSubscriptions x.encoder order ≠ [] := by
  obtain ⟨u, sc, f, hs⟩ := hne
  obtain ⟨k, e, -⟩ := encoder_carries x hb.ok sc f (wellFormed_encodable sc f hs.1)
  obtain ⟨v, hv⟩ := mem_bytes_of_subscribes ((hb.subscribes hp u k).mpr ⟨sc, f, hs, e⟩)
  exact List.ne_nil_of_mem hv

theorem FileBehind.noForks (hb : FileBehind x records sub) (hp : order.Perm sub)
    (hn : FileNoForks records) : NoForks fun k u => (k, u) ∈ toByteSubscriptions x.encoder order := by
  intro k a b u v w hk ha hb' h1 h2
  obtain ⟨sc, f, s1, e1⟩ := (hb.subscribes hp u k).mp (mem_toByteSubscriptions hk)
  obtain ⟨sa, fa, s2, e2⟩ := (hb.subscribes hp v a).mp (mem_toByteSubscriptions ha)
  obtain ⟨sb, fb, s3, e3⟩ := (hb.subscribes hp w b).mp (mem_toByteSubscriptions hb')
  have nar : ∀ {s' f' k'}, Scheme.WellFormed s' f' → x.encoder s'.typeName f' = some k' → Extends k k' →
      Narrower (s', f') (sc, f) := by
    intro s' f' k' hw e hx
    refine ⟨(encoder_within x hb.ok s1.1 e1 hw e).mp hx.1, fun h => hx.2 ?_⟩
    have := (encoder_within x hb.ok hw e s1.1 e1).mpr h
    exact hx.1.eq_of_length (Nat.le_antisymm hx.1.length_le this.length_le)
  rcases hn u v w (sc, f) (sa, fa) (sb, fb) s1 s2 s3 (nar s2.1 e2 h1) (nar s3.1 e3 h2) with h | h
  · exact Or.inr ((encoder_within x hb.ok s3.1 e3 s2.1 e2).mpr h)
  · exact Or.inl ((encoder_within x hb.ok s2.1 e2 s3.1 e3).mpr h)

/-- the root filter of the Patricia trie is not a pattern of the file -/
theorem FileBehind.noRoot (hb : FileBehind x records sub) (hp : order.Perm sub) (hn : NoWidest records)
    {k u : Str} (h : (k, u) ∈ toByteSubscriptions x.encoder order) :
    k ≠ lcp (mapKeys (toByteSubscriptions x.encoder order)) := by
  rintro rfl
  obtain ⟨sc, f, s1, e1⟩ := (hb.subscribes hp u _).mp (mem_toByteSubscriptions h)
  obtain ⟨w, sc', f', g1, g2⟩ := hn u sc f s1
  obtain ⟨k', e', -⟩ := encoder_carries x hb.ok sc' f' (wellFormed_encodable sc' f' g1.1)
  obtain ⟨v', hv'⟩ := mem_bytes_of_subscribes ((hb.subscribes hp w k').mpr ⟨sc', f', g1, e'⟩)
  have hk := (mem_mapKeys _ k').mpr (List.mem_map.mpr ⟨_, hv', rfl⟩)
  have hpre : lcp (mapKeys (toByteSubscriptions x.encoder order)) <+: k' :=
    (lcp_spec _ (List.ne_nil_of_mem hk)).1 k' hk
  exact g2 ((encoder_within x hb.ok s1.1 e1 g1.1 e').mp hpre)

/-- a search of the splay tree, whatever the searches before -/
theorem FileBehind.splay_search (hb : FileBehind x records sub) {E : Engines} (hE : EnginesFor x sub E)
    (id : List Byte) (hl : id.length = 12) :
    ∃ uris t', E.splay.search id = some (uris, t') ∧ EnginesFor x sub { E with splay := t' } ∧
      (FileNoForks records → ∃ order : Subs, order.Perm sub ∧
        ReportsInKeyOrder (toByteSubscriptions x.encoder order) id uris) := by
  obtain ⟨order, t0, p1, p2, p3, p4, p5⟩ := hE.splay
  have hid : id ≠ [] := by rintro rfl; cases hl
  have hfit : ∀ k u, (k, u) ∈ toByteSubscriptions x.encoder order → k.length ≤ 8 * id.length := by
    intro k u h
    have := (hb.covered p1 id hl k u h).2.1
    simpa using this
  have hcmp := nodes_comparable id hid t0 [] p2.2.1 (Or.inl rfl)
    fun e he => hfit e.1 e.2 ((p2.2.2 _ _).mp he)
  obtain ⟨⟨ms, r, l⟩, hr⟩ := splaySearch_no_panic id E.splay true p3 fun n hn => hcmp n (p4.mem_iff.mp hn)
  have hs : E.splay.search id = some (ms, l.foldl attach r) := by unfold SNode.search; rw [hr]
  refine ⟨_, _, hs, ⟨hE.legacy, hE.list, hE.patricia, ⟨order, t0, p1, p2, search_tree_ne p3 hs,
    (search_nodes hs).trans p4, fun hn => ?_⟩⟩, fun hn => ⟨order, p1, ?_⟩⟩
  · obtain ⟨uris, t', q1, -, q3⟩ := sstores_search (p5 hn) id hid hfit
    rw [hs] at q1
    cases q1
    exact q3 hn
  · obtain ⟨uris, t', q1, q2, -⟩ := sstores_search (p5 (hb.noForks p1 hn)) id hid hfit
    rw [hs] at q1
    cases q1
    exact q2

theorem legacyMatches_mem (hb : FileBehind x records sub) (hp : order.Perm sub) {pc id : List Byte} {ident : Str}
    (htr : translate pc id = some (ident, false)) :
    ∃ r, legacySearch translate order pc id = some r ∧ r.pureIdentity = ident ∧
      (r.err = true ↔ r.reportURIs = []) ∧
      ∀ u, u ∈ r.reportURIs ↔ ∃ sc fields, FileSubscribes records u sc fields ∧
        TextMatches ident (sc.patternText fields) := by
  have hm : IsMap order := (hp.map Prod.fst).nodup_iff.mpr hb.map
  obtain ⟨r, h1, h2, h3, ⟨sel, h4, h5⟩, -⟩ := C28_search translate order hm pc id ident htr
  refine ⟨r, h1, h2, h3, fun u => ?_⟩
  rw [← List.count_pos_iff, h5, List.countP_pos_iff]
  constructor
  · rintro ⟨pat, hpat, hsel⟩
    cases hg : mapGet order u with
    | none => rw [hg] at hpat; cases hpat
    | some pats =>
      rw [hg] at hpat
      obtain ⟨sc, f, hs, rfl⟩ := (hb.mem u pat).mp ⟨pats, hp.mem_iff.mp (mapGet_mem hg), hpat⟩
      exact ⟨sc, f, hs, (h4 _).mp hsel⟩
  · rintro ⟨sc, f, hs, ht⟩
    obtain ⟨pats, g1, g2⟩ := (hb.mem u _).mpr ⟨sc, f, hs, rfl⟩
    refine ⟨_, ?_, (h4 _).mpr ht⟩
    rw [mapGet_of_mem hm (hp.mem_iff.mpr g1)]
    exact g2

/-- one search of one engine -/
theorem engine_search (hb : FileBehind x records sub) (hf : FileOk records)
    (hload : loadRecords records = some sub) {E : Engines}
    (hE : EnginesFor x sub E) {e : ReadEvent} {ident : Str} (he : e.Has ident) {n : EngineName}
    {r : Option (SearchResult × Engines)} (h : EngineSearch translate E e n r) :
    ∃ q E', r = some (q, E') ∧ EnginesFor x sub E' ∧ AnswersAs records e.2 ident q n := by
  obtain ⟨hl, htr⟩ := he
  obtain ⟨sub', l1, l2⟩ := C89_engines x hb.ok records hf
  rw [hload] at l1
  cases l1
  cases h with
  | legacy order hp =>
    obtain ⟨q, h1, h2⟩ := legacyMatches_mem hb (hp.trans hE.legacy) htr
    exact ⟨q, E, by rw [h1]; rfl, hE, h2⟩
  | list =>
    obtain ⟨order, hp, ho⟩ := hE.list
    obtain ⟨⟨q, h1, h2⟩, -⟩ := l2 order hp e.1 e.2 ident hl htr
    exact ⟨q, E, by rw [ho, h1]; rfl, hE, h2⟩
  | patricia =>
    obtain ⟨order, hp, ho⟩ := hE.patricia
    obtain ⟨-, ⟨q, h1, h2⟩, -⟩ := l2 order hp e.1 e.2 ident hl htr
    exact ⟨q, E, by rw [ho, h1]; rfl, hE, h2⟩
  | splay =>
    obtain ⟨uris, t', h1, h2, h3⟩ := hb.splay_search hE e.2 hl
    obtain ⟨q, h4, h5⟩ := finishSearch_some (tr := translate) (pc := e.1) (id := e.2) uris (by rw [htr]; simp)
    refine ⟨q, { E with splay := t' }, ?_, h2, fun hn => ?_⟩
    · unfold SNode.searchEngine
      rw [h1]
      dsimp only
      rw [h4]; rfl
    · obtain ⟨order, hp, hr⟩ := h3 hn
      obtain ⟨r, h6, h7⟩ := reports_answer x hb.ok (fun _ _ => True) (hb.subscribes hp) _ (fun _ h => h)
        (fun _ _ h _ _ _ _ _ _ => h) e.2 hl uris hr e.1 ident htr
      rw [h4] at h6
      cases h6
      exact h7

theorem engineSearch_total (tr : Translator) (E : Engines) (e : ReadEvent) (n : EngineName) :
    ∃ r, EngineSearch tr E e n r := by
  cases n with
  | legacy => exact ⟨_, .legacy _ (List.Perm.refl _)⟩
  | list => exact ⟨_, .list⟩
  | patricia => exact ⟨_, .patricia⟩
  | splay => exact ⟨_, .splay⟩

theorem factorySearch_total (tr : Translator) (e : ReadEvent) (sel : EngineName) :
    ∀ (others : List EngineName) (E : Engines), ∃ r, FactorySearch tr e sel E others r
  | [], E => by
    obtain ⟨r, h⟩ := engineSearch_total tr E e sel
    exact ⟨r, .selected h⟩
  | n :: others, E => by
    obtain ⟨r, h⟩ := engineSearch_total tr E e n
    cases r with
    | none => exact ⟨none, .panic h⟩
    | some q =>
      obtain ⟨r, h'⟩ := factorySearch_total tr e sel others q.2
      exact ⟨r, .other h h'⟩

/-- one search of the factory -/
theorem factory_search (hb : FileBehind x records sub) (hf : FileOk records)
    (hload : loadRecords records = some sub) {e : ReadEvent} {ident : Str} (he : e.Has ident) {sel : EngineName}
    {E : Engines} {others : List EngineName} {r : Option (SearchResult × Engines)}
    (h : FactorySearch translate e sel E others r) (hE : EnginesFor x sub E) :
    ∃ q E', r = some (q, E') ∧ EnginesFor x sub E' ∧ AnswersAs records e.2 ident q sel := by
  induction h with
  | selected h => exact engine_search hb hf hload hE he h
  | other h _ ih =>
    obtain ⟨q, E', h1, h2, -⟩ := engine_search hb hf hload hE he h
    cases h1
    exact ih h2
  | panic h =>
    obtain ⟨q, E', h1, -⟩ := engine_search hb hf hload hE he h
    cases h1

theorem engines_answered (hb : FileBehind x records sub) (hf : FileOk records)
    (hload : loadRecords records = some sub) {can : List EngineName → EngineName → Prop} {events : List ReadEvent}
    {results : List SearchResult} {E E' : Engines} (h : Answered (enginesAnswer translate can) E events results E')
    (he : ∀ e ∈ events, ∃ ident, ReadEvent.Has e ident) (hE : EnginesFor x sub E) : EnginesFor x sub E' := by
  induction h with
  | nil => exact hE
  | cons h _ ih =>
    obtain ⟨others, sel, -, h⟩ := h
    obtain ⟨ident, hi⟩ := he _ List.mem_cons_self
    obtain ⟨q, E1, h1, h2, -⟩ := factory_search hb hf hload hi h hE
    cases h1
    exact ih (fun e he' => he e (List.mem_cons_of_mem _ he')) h2

end

end Gosstrak
