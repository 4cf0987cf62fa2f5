import Verif.Spec.MixedRun
import Verif.Props.Mixed
import Verif.Props.Whole

namespace Gosstrak

open SNode

/-- a pattern asks for the bits that its filter starts with -/
theorem key_asks (x : Binutil) (hx : x.Ok) {t : Str} {f : List Str} (h : PatKnown t f) (g : Str) :
    Asks t f g ↔ g <+: keyOf x t f := by
  obtain ⟨b, s⟩ := known_key x hx h
  constructor
  · intro hw
    have step : ∀ c, c = '0' ∨ c = '1' → ∃ id : List Byte, id ≠ [] ∧ keyOf x t f ++ [c] <+: bitsOf id := by
      intro c hc
      obtain ⟨id, h1, h2, -⟩ := exists_id_from (g := keyOf x t f ++ [c]) (by
        intro d hd
        rcases List.mem_append.mp hd with hd | hd
        · exact b d hd
        · rw [List.mem_singleton] at hd; rw [hd]; exact hc) 0
      exact ⟨id, h1, h2⟩
    obtain ⟨i0, a0, p0⟩ := step '0' (Or.inl rfl)
    obtain ⟨i1, a1, p1⟩ := step '1' (Or.inr rfl)
    have q0 := hw i0 a0 ((s i0 a0).mp ((List.prefix_append _ _).trans p0))
    have q1 := hw i1 a1 ((s i1 a1).mp ((List.prefix_append _ _).trans p1))
    by_cases hl : g.length ≤ (keyOf x t f).length
    · exact List.prefix_of_prefix_length_le q0 ((List.prefix_append _ _).trans p0) hl
    · exfalso
      have r0 := List.prefix_of_prefix_length_le p0 q0 (by rw [List.length_append, List.length_singleton]; omega)
      have r1 := List.prefix_of_prefix_length_le p1 q1 (by rw [List.length_append, List.length_singleton]; omega)
      have := (List.prefix_of_prefix_length_le r0 r1 (by simp)).eq_of_length (by simp)
      simp at this
  · intro hp id hid hsel
    exact hp.trans ((s id hid).mpr hsel)

/-- the file behind the engines -/
structure MixedBehind (x : Binutil) (records : List (List Str)) (sub : Subs) : Prop where
  ok : x.Ok
  fine : FileFine records
  map : IsMap sub
  get : ∀ uri, mapGet sub uri = if "http".toList <+: uri ∧ recordPatterns records uri ≠ [] then
    some (recordPatterns records uri) else none

theorem mixedBehind (x : Binutil) (hx : x.Ok) (records : List (List Str)) (hf : FileFine records) :
    ∃ sub, loadRecords records = some sub ∧ MixedBehind x records sub := by
  obtain ⟨sub, l1, l2, l3⟩ := C65_loaded records fun r hr => (hf r hr).1
  exact ⟨sub, l1, hx, hf, l2, l3⟩

section
variable {x : Binutil} {records : List (List Str)} {sub order : Subs}

theorem MixedBehind.known (hb : MixedBehind x records sub) {u t : Str} {f : List Str}
    (h : FileGives records u t f) : PatKnown t f := gives_known hb.fine h

theorem MixedBehind.subscribes (hb : MixedBehind x records sub) (hp : order.Perm sub) (uri k : Str) :
    Subscribes x.encoder order uri k ↔ ∃ t f, FileGives records uri t f ∧ keyOf x t f = k :=
  gives_subscribes x hb.map hb.get hp uri k

theorem MixedBehind.mem (hb : MixedBehind x records sub) (hp : order.Perm sub) {k u : Str}
    (h : (k, u) ∈ toByteSubscriptions x.encoder order) : ∃ t f, FileGives records u t f ∧ keyOf x t f = k :=
  (hb.subscribes hp u k).mp (mem_toByteSubscriptions h)

theorem MixedBehind.stored (hb : MixedBehind x records sub) (hp : order.Perm sub) {u t : Str} {f : List Str}
    (h : FileGives records u t f) : ∃ v, (keyOf x t f, v) ∈ toByteSubscriptions x.encoder order :=
  mem_bytes_of_subscribes ((hb.subscribes hp u _).mpr ⟨t, f, h, rfl⟩)

theorem MixedBehind.bits (hb : MixedBehind x records sub) (hp : order.Perm sub) {k u : Str}
    (h : (k, u) ∈ toByteSubscriptions x.encoder order) : IsBitStr k := by
  obtain ⟨t, f, hg, rfl⟩ := hb.mem hp h
  exact (known_key x hb.ok (hb.known hg)).1

theorem MixedBehind.uris (hb : MixedBehind x records sub) (hp : order.Perm sub) : UrisNonEmpty order := by
  rintro ⟨u, pats⟩ he e0
  have := mapGet_of_mem hb.map (hp.mem_iff.mp he)
  rw [hb.get] at this
  split at this
  · rename_i hh
    rw [show u = [] from e0] at hh
    exact absurd hh.1 (by decide)
  · cases this

theorem MixedBehind.nonempty (hb : MixedBehind x records sub) (hp : order.Perm sub)
    (hne : ∃ u t f, FileGives records u t f) : toByteSubscriptions x.encoder order ≠ [] := by
  obtain ⟨u, t, f, hg⟩ := hne
  obtain ⟨v, hv⟩ := hb.stored hp hg
  exact List.ne_nil_of_mem hv

theorem MixedBehind.short (hb : MixedBehind x records sub) (hp : order.Perm sub)
    (hne : ∃ u t f, FileGives records u t f) (id : List Byte) :
    TagTooShort (toByteSubscriptions x.encoder order) id ↔ id = [] ∨ CutIn records id := by
  by_cases hid : id = []
  · subst hid
    obtain ⟨e, he⟩ := List.exists_mem_of_ne_nil _ (hb.nonempty hp hne)
    exact ⟨fun _ => Or.inl rfl, fun _ => ⟨e.1, e.2, he, by rw [bitsOf_nil]; exact List.nil_prefix, Or.inr rfl⟩⟩
  · constructor
    · rintro ⟨k, u, hm, he⟩
      obtain ⟨t, f, hg, rfl⟩ := hb.mem hp hm
      exact Or.inr ⟨u, t, f, hg, (known_cut x hb.ok (hb.known hg) id hid).mp he⟩
    · rintro (h | ⟨u, t, f, hg, hc⟩)
      · exact absurd h hid
      · obtain ⟨v, hv⟩ := hb.stored hp hg
        exact ⟨_, v, hv, (known_cut x hb.ok (hb.known hg) id hid).mpr hc⟩

theorem MixedBehind.branch (hb : MixedBehind x records sub) (hp : order.Perm sub) (id : List Byte) :
    TagEndsOnBranch (toByteSubscriptions x.encoder order) id ↔ OnBranch records id := by
  constructor
  · rintro ⟨c, ⟨k, u, hm, hk⟩, h⟩
    obtain ⟨t, f, hg, rfl⟩ := hb.mem hp hm
    refine ⟨c, ⟨u, t, f, hg, (key_asks x hb.ok (hb.known hg) _).mpr hk⟩, fun u t f hg ha => ?_⟩
    obtain ⟨v, hv⟩ := hb.stored hp hg
    rw [key_asks x hb.ok (hb.known hg)] at ha ⊢
    exact h _ v hv ha
  · rintro ⟨c, ⟨u, t, f, hg, hk⟩, h⟩
    obtain ⟨v, hv⟩ := hb.stored hp hg
    refine ⟨c, ⟨_, v, hv, (key_asks x hb.ok (hb.known hg) _).mp hk⟩, fun k u hm ha => ?_⟩
    obtain ⟨t, f, hg, rfl⟩ := hb.mem hp hm
    have := h u t f hg
    rw [key_asks x hb.ok (hb.known hg), key_asks x hb.ok (hb.known hg)] at this
    exact this ha

theorem MixedBehind.noForks (hb : MixedBehind x records sub) (hp : order.Perm sub) (hn : PatNoForks records) :
    NoForks fun k u => (k, u) ∈ toByteSubscriptions x.encoder order := by
  intro k a b u v w hk ha hb' h1 h2
  obtain ⟨t, f, g, rfl⟩ := hb.mem hp hk
  obtain ⟨ta, fa, ga, rfl⟩ := hb.mem hp ha
  obtain ⟨tb, fb, gb, rfl⟩ := hb.mem hp hb'
  have within : ∀ {u u' t t' f f'}, FileGives records u t f → FileGives records u' t' f' →
      (PatWithin t f t' f' ↔ keyOf x t' f' <+: keyOf x t f) := fun g g' =>
    key_of_within x hb.ok (hb.known g) (hb.known g')
  have nar : ∀ {u' t' f'}, FileGives records u' t' f' → Extends (keyOf x t f) (keyOf x t' f') →
      PatNarrower (t', f') (t, f) := by
    intro u' t' f' g' hx
    refine ⟨(within g' g).mpr hx.1, fun h => hx.2 ?_⟩
    exact hx.1.eq_of_length_le ((within g g').mp h).length_le
  rcases hn u v w (t, f) (ta, fa) (tb, fb) g ga gb (nar ga h1) (nar gb h2) with h | h
  · exact Or.inr ((within ga gb).mp h)
  · exact Or.inl ((within gb ga).mp h)

/-- the patterns that the trie does not report are those that select all -/
theorem MixedBehind.root (hb : MixedBehind x records sub) (hp : order.Perm sub) {u t : Str} {f : List Str}
    (hg : FileGives records u t f) :
    keyOf x t f ≠ lcp (mapKeys (toByteSubscriptions x.encoder order)) ↔ NotAll records t f := by
  have hkeys : ∀ k, k ∈ mapKeys (toByteSubscriptions x.encoder order) ↔ ∃ u t f, FileGives records u t f ∧
      keyOf x t f = k := by
    intro k
    rw [mem_mapKeys, List.mem_map]
    constructor
    · rintro ⟨⟨k, u⟩, hm, rfl⟩
      exact ⟨u, hb.mem hp hm⟩
    · rintro ⟨u, t, f, hg, rfl⟩
      obtain ⟨v, hv⟩ := hb.stored hp hg
      exact ⟨_, hv, rfl⟩
  have hmem := (hkeys _).mpr ⟨u, t, f, hg, rfl⟩
  obtain ⟨s1, s2⟩ := lcp_spec _ (List.ne_nil_of_mem hmem)
  constructor
  · intro hne
    apply Classical.byContradiction
    intro hno
    refine hne ((s2 _ fun k hk => ?_).eq_of_length_le (s1 _ hmem).length_le)
    obtain ⟨u', t', f', g', rfl⟩ := (hkeys k).mp hk
    refine (key_of_within x hb.ok (hb.known g') (hb.known hg)).mp ?_
    exact Classical.byContradiction fun hw => hno ⟨u', t', f', g', hw⟩
  · rintro ⟨u', t', f', g', hw⟩ e
    refine hw ((key_of_within x hb.ok (hb.known g') (hb.known hg)).mpr ?_)
    rw [e]
    exact s1 _ ((hkeys _).mpr ⟨u', t', f', g', rfl⟩)

/-- the end of a search, from the filters that are reported -/
theorem MixedBehind.finish (hb : MixedBehind x records sub) (hp : order.Perm sub) (P : Str → List Str → Prop)
    {e : ReadEvent} (hid : e.2 ≠ []) {uris : List Str} {bsub : FlatSubs}
    (hin : ∀ k u, (k, u) ∈ bsub ↔ (k, u) ∈ toByteSubscriptions x.encoder order ∧
      ∀ t f, FileGives records u t f → keyOf x t f = k → P t f)
    (hP : ∀ u v t f t' f', FileGives records u t f → FileGives records v t' f' → keyOf x t f = keyOf x t' f' →
      P t f → P t' f')
    (hr : ReportsInKeyOrder bsub e.2 uris) :
    (finishSearch translate e.1 e.2 uris = none ↔
      (∃ u t f, FileGives records u t f ∧ P t f ∧ PatSelects t f e.2) ∧ translate e.1 e.2 = none) ∧
    ∀ q, finishSearch translate e.1 e.2 uris = some q → AnswersWith P records e q := by
  obtain ⟨hits, -, h2, rfl⟩ := hr
  have sel : ∀ {u t f}, FileGives records u t f → (keyOf x t f <+: bitsOf e.2 ↔ PatSelects t f e.2) :=
    fun hg => (known_key x hb.ok (hb.known hg)).2 e.2 hid
  have sound : ∀ u ∈ hits.map Prod.snd, ∃ t f, FileGives records u t f ∧ P t f ∧ PatSelects t f e.2 := by
    intro u hu
    obtain ⟨⟨k, u'⟩, hk, rfl⟩ := List.mem_map.mp hu
    obtain ⟨hmem, hpre⟩ := (h2 k u').mp hk
    obtain ⟨hm, hall⟩ := (hin k u').mp hmem
    obtain ⟨t, f, hg, rfl⟩ := hb.mem hp hm
    exact ⟨t, f, hg, hall t f hg rfl, (sel hg).mp hpre⟩
  have complete : ∀ u t f, FileGives records u t f → P t f → PatSelects t f e.2 →
      ∃ v ∈ hits.map Prod.snd, ∃ t' f', FileGives records v t' f' ∧ PatSame t f t' f' := by
    intro u t f hg hPt hh
    obtain ⟨v, hv⟩ := hb.stored hp hg
    obtain ⟨t', f', hg', e'⟩ := hb.mem hp hv
    refine ⟨v, List.mem_map.mpr ⟨_, (h2 _ v).mpr ⟨(hin _ _).mpr ⟨hv, fun t'' f'' g'' e'' => ?_⟩,
      (sel hg).mpr hh⟩, rfl⟩, t', f', hg', (key_of_same x hb.ok (hb.known hg) (hb.known hg')).mpr e'.symm⟩
    exact hP u v t f t'' f'' hg g'' e''.symm hPt
  unfold finishSearch
  by_cases h0 : hits.map Prod.snd = []
  · rw [if_pos (by rw [h0]; rfl)]
    refine ⟨⟨fun h => (by cases h), ?_⟩, ?_⟩
    · rintro ⟨⟨u, t, f, hg, hPt, hh⟩, -⟩
      obtain ⟨v, hv, -⟩ := complete u t f hg hPt hh
      rw [h0] at hv
      cases hv
    · intro q hq
      cases hq
      refine ⟨fun u hu => ?_, complete, fun h => absurd h0 h, fun _ => ⟨rfl, rfl⟩⟩
      obtain ⟨t, f, a, -, c⟩ := sound u hu
      exact ⟨t, f, a, c⟩
  · rw [if_neg fun h => h0 (List.length_eq_zero_iff.mp h)]
    obtain ⟨u, hu⟩ := List.exists_mem_of_ne_nil _ h0
    obtain ⟨t, f, a, b, c⟩ := sound u hu
    cases htr : translate e.1 e.2 with
    | none => exact ⟨⟨fun _ => ⟨⟨u, t, f, a, b, c⟩, rfl⟩, fun _ => rfl⟩, fun q hq => by cases hq⟩
    | some p =>
      refine ⟨⟨fun h => (by cases h), fun h => (by cases h.2)⟩, fun q hq => ?_⟩
      cases hq
      refine ⟨fun u hu => ?_, complete, fun _ => htr, fun h => absurd h h0⟩
      obtain ⟨t, f, a, -, c⟩ := sound u hu
      exact ⟨t, f, a, c⟩

/-- what is known of the engines that do not change -/
structure StillEngines (x : Binutil) (sub : Subs) (E : Engines) : Prop where
  legacy : E.legacy.Perm sub
  list : ∃ order : Subs, order.Perm sub ∧ E.list = newList x.encoder order
  patricia : ∃ order : Subs, order.Perm sub ∧ E.patricia = newPatricia x.encoder order

/-- what is known of the engines built from a file without forks, after any searches -/
structure MixedEngines (x : Binutil) (sub : Subs) (E : Engines) : Prop extends StillEngines x sub E where
  splay : ∃ order : Subs, order.Perm sub ∧ SStores E.splay fun k u => (k, u) ∈ toByteSubscriptions x.encoder order

theorem mixedEngines_new (hb : MixedBehind x records sub) (hne : ∃ u t f, FileGives records u t f)
    {o1 o2 o3 : Subs} (h1 : o1.Perm sub) (h2 : o2.Perm sub) (h3 : o3.Perm sub) :
    ∃ E, newEngines x.encoder sub o1 o2 o3 = some E ∧ MixedEngines x sub E := by
  obtain ⟨t, e, hs⟩ := sstores_fresh _ (isMap_toByteSubscriptions x.encoder o3) (hb.nonempty h3 hne)
    fun k u h => hb.bits h3 h
  have e' : newSplay x.encoder o3 = some t := e
  exact ⟨_, by unfold newEngines; rw [e']; rfl, ⟨List.Perm.refl _, ⟨o1, h1, rfl⟩, ⟨o2, h2, rfl⟩⟩, ⟨o3, h3, hs⟩⟩

/-- the texts that the legacy engine goes through -/
theorem MixedBehind.texts (hb : MixedBehind x records sub) (hp : order.Perm sub) (u p : Str) :
    p ∈ (mapGet order u).getD [] ↔ "http".toList <+: u ∧ ∃ rec ∈ records, (rec.head?).map toLower = some u ∧
      p ∈ rec.tail ∧ "urn:epc:pat:".toList <+: toLower p := by
  have hm : IsMap order := (hp.map Prod.fst).nodup_iff.mpr hb.map
  have hrec : p ∈ recordPatterns records u ↔ ∃ r ∈ records, (r.head?).map toLower = some u ∧
      p ∈ r.tail ∧ "urn:epc:pat:".toList <+: toLower p := by
    unfold recordPatterns
    rw [List.mem_flatMap]
    constructor
    · rintro ⟨r, hr, h⟩
      split at h
      · rename_i he
        rw [List.mem_filter, decide_eq_true_iff] at h
        exact ⟨r, hr, he, h.1, h.2⟩
      · cases h
    · rintro ⟨r, hr, he, h1, h2⟩
      exact ⟨r, hr, by rw [if_pos he, List.mem_filter, decide_eq_true_iff]; exact ⟨h1, h2⟩⟩
  have hget : mapGet order u = mapGet sub u := by
    cases hg : mapGet sub u with
    | some v => exact mapGet_of_mem hm (hp.mem_iff.mpr (mapGet_mem hg))
    | none =>
      cases hg' : mapGet order u with
      | none => rfl
      | some v => rw [mapGet_of_mem hb.map (hp.mem_iff.mp (mapGet_mem hg'))] at hg; cases hg
  rw [hget, hb.get, ← hrec]
  split
  · rename_i h; exact ⟨fun h' => ⟨h.1, h'⟩, fun h' => h'.2⟩
  · rename_i h
    refine ⟨fun h' => (by cases h'), fun h' => ?_⟩
    exact absurd ⟨h'.1, List.ne_nil_of_mem h'.2⟩ h

/-- one search of an engine that does not change, for any tag -/
theorem still_engine (hb : MixedBehind x records sub) (hne : ∃ u t f, FileGives records u t f)
    {E : Engines} (hE : StillEngines x sub E) {e : ReadEvent} {n : EngineName} (hs : n ≠ .splay)
    {r : Option (SearchResult × Engines)} (h : EngineSearch translate E e n r) :
    (r = none ↔ EndsIn records e n) ∧ ∀ q E', r = some (q, E') → E' = E ∧ GivesAnswer records e q n := by
  cases h with
  | legacy order hp =>
    have hp' := hp.trans hE.legacy
    have hm : IsMap order := (hp'.map Prod.fst).nodup_iff.mpr hb.map
    show (_ ↔ translate e.1 e.2 = none) ∧ _
    cases htr : translate e.1 e.2 with
    | none =>
      unfold legacySearch
      rw [htr]
      exact ⟨⟨fun _ => rfl, fun _ => rfl⟩, fun q E' h => by cases h⟩
    | some p =>
      obtain ⟨p, fails⟩ := p
      cases fails with
      | true =>
        unfold legacySearch
        rw [htr]
        refine ⟨⟨fun h => (by cases h), fun h => (by cases h)⟩, fun q E' h => ?_⟩
        cases h
        exact ⟨rfl, true, htr, by simp, by simp⟩
      | false =>
        obtain ⟨r, h1, h2, h3, ⟨sel, h4, h5⟩, -⟩ := C28_search translate order hm e.1 e.2 p htr
        rw [h1]
        refine ⟨⟨fun h => (by cases h), fun h => (by cases h)⟩, fun q E' h => ?_⟩
        cases h
        subst h2
        refine ⟨rfl, false, htr, h3, fun u => ?_⟩
        rw [← List.count_pos_iff, h5, List.countP_pos_iff]
        constructor
        · rintro ⟨pat, hpat, hsel⟩
          obtain ⟨a, rec, b, c, d, g⟩ := (hb.texts hp' u pat).mp hpat
          exact ⟨rfl, a, rec, b, c, pat, d, g, (h4 _).mp hsel⟩
        · rintro ⟨-, a, rec, b, c, pat, d, g, ht⟩
          exact ⟨pat, (hb.texts hp' u pat).mpr ⟨a, rec, b, c, d, g⟩, (h4 _).mpr ht⟩
  | list =>
    obtain ⟨o, ho, eo⟩ := hE.list
    obtain ⟨c1, c2⟩ := C96_list x.encoder o (fun k u h => hb.bits ho h) translate e.1 e.2
    rw [hb.short ho hne] at c1 c2
    rw [eo]
    by_cases hs : e.2 = [] ∨ CutIn records e.2
    · rw [c1 hs]
      exact ⟨⟨fun _ => hs.elim Or.inl fun h => Or.inr (Or.inl h), fun _ => rfl⟩, fun q E' h => by cases h⟩
    · obtain ⟨uris, h1, h2⟩ := c2 hs
      obtain ⟨f1, f2⟩ := hb.finish ho (fun _ _ => True) (fun h => hs (Or.inl h)) (by simp) (by simp) h1
      rw [h2, Option.map_eq_none_iff, f1]
      refine ⟨⟨?_, ?_⟩, fun q E' h => ?_⟩
      · rintro ⟨⟨u, t, f, a, -, b⟩, c⟩
        exact Or.inr (Or.inr ⟨⟨u, t, f, a, b⟩, c⟩)
      · rintro (h | h | ⟨⟨u, t, f, a, b⟩, c⟩)
        · exact absurd (Or.inl h) hs
        · exact absurd (Or.inr h) hs
        · exact ⟨⟨u, t, f, a, trivial, b⟩, c⟩
      · obtain ⟨q', h3, h4⟩ := Option.map_eq_some_iff.mp h
        cases h4
        exact ⟨rfl, f2 _ h3⟩
  | patricia =>
    obtain ⟨o, ho, eo⟩ := hE.patricia
    obtain ⟨c1, c2⟩ := C96_patricia x.encoder o (hb.uris ho) (fun k u h => hb.bits ho h) translate e.1 e.2
    rw [hb.branch ho] at c1 c2
    rw [eo]
    by_cases hs : e.2 = [] ∨ OnBranch records e.2
    · rw [c1 hs]
      exact ⟨⟨fun _ => hs.elim Or.inl fun h => Or.inr (Or.inl h), fun _ => rfl⟩, fun q E' h => by cases h⟩
    · obtain ⟨uris, h1, h2⟩ := c2 (fun h => hs (Or.inl h)) fun h => hs (Or.inr h)
      obtain ⟨f1, f2⟩ := hb.finish ho (NotAll records) (fun h => hs (Or.inl h)) (by
        intro k u
        rw [List.mem_filter, decide_eq_true_iff]
        refine and_congr_right fun hm => ⟨fun h t f hg ek => (hb.root ho hg).mp (ek ▸ h), fun h => ?_⟩
        obtain ⟨t, f, hg, rfl⟩ := hb.mem ho hm
        exact (hb.root ho hg).mpr (h t f hg rfl)) (by
        intro u v t f t' f' hg hg' ek h
        rw [← hb.root ho hg] at h
        rw [← hb.root ho hg', ← ek]
        exact h) h1
      rw [h2, Option.map_eq_none_iff, f1]
      refine ⟨⟨fun h => Or.inr (Or.inr h), ?_⟩, fun q E' h => ?_⟩
      · rintro (h | h | h)
        · exact absurd (Or.inl h) hs
        · exact absurd (Or.inr h) hs
        · exact h
      · obtain ⟨q', h3, h4⟩ := Option.map_eq_some_iff.mp h
        cases h4
        exact ⟨rfl, f2 _ h3⟩
  | splay => exact absurd rfl hs

/-- one search of one engine, for any tag -/
theorem mixed_engine (hb : MixedBehind x records sub) (hne : ∃ u t f, FileGives records u t f)
    (hn : PatNoForks records) {E : Engines} (hE : MixedEngines x sub E) {e : ReadEvent} {n : EngineName}
    {r : Option (SearchResult × Engines)} (h : EngineSearch translate E e n r) :
    (r = none ↔ EndsIn records e n) ∧
    ∀ q E', r = some (q, E') → MixedEngines x sub E' ∧ GivesAnswer records e q n := by
  by_cases hns : n ≠ .splay
  · obtain ⟨a, b⟩ := still_engine hb hne hE.toStillEngines hns h
    exact ⟨a, fun q E' h => ⟨(b q E' h).1 ▸ hE, (b q E' h).2⟩⟩
  cases h with
  | legacy => exact absurd (by simp) hns
  | list => exact absurd (by simp) hns
  | patricia => exact absurd (by simp) hns
  | splay =>
    obtain ⟨o, ho, hst⟩ := hE.splay
    obtain ⟨c1, c2⟩ := sstores_any hst e.2
    have hshort := hb.short ho hne e.2
    unfold TagTooShort at hshort
    rw [hshort] at c1 c2
    unfold SNode.searchEngine
    by_cases hs : e.2 = [] ∨ CutIn records e.2
    · rw [c1 hs]
      exact ⟨⟨fun _ => hs.elim Or.inl fun h => Or.inr (Or.inl h), fun _ => rfl⟩, fun q E' h => by cases h⟩
    · obtain ⟨uris, t', h1, h2, h3⟩ := c2 hs
      obtain ⟨f1, f2⟩ := hb.finish ho (fun _ _ => True) (fun h => hs (Or.inl h)) (by simp) (by simp) h2
      rw [h1]
      dsimp only
      rw [Option.map_map, Option.map_eq_none_iff, f1]
      refine ⟨⟨?_, ?_⟩, fun q E' h => ?_⟩
      · rintro ⟨⟨u, t, f, a, -, b⟩, c⟩
        exact Or.inr (Or.inr ⟨⟨u, t, f, a, b⟩, c⟩)
      · rintro (h | h | ⟨⟨u, t, f, a, b⟩, c⟩)
        · exact absurd (Or.inl h) hs
        · exact absurd (Or.inr h) hs
        · exact ⟨⟨u, t, f, a, trivial, b⟩, c⟩
      · obtain ⟨q', h4, h5⟩ := Option.map_eq_some_iff.mp h
        cases h5
        exact ⟨⟨⟨hE.legacy, hE.list, hE.patricia⟩, o, ho, h3 (hb.noForks ho hn)⟩, f2 _ h4⟩

/-- one search of the factory, for any tag -/
theorem mixed_factory (hb : MixedBehind x records sub) (hne : ∃ u t f, FileGives records u t f)
    (hn : PatNoForks records) {e : ReadEvent} {sel : EngineName} {E : Engines} {others : List EngineName}
    {r : Option (SearchResult × Engines)} (h : FactorySearch translate e sel E others r)
    (hE : MixedEngines x sub E) :
    (r = none ↔ ∃ n ∈ sel :: others, EndsIn records e n) ∧
    ∀ q E', r = some (q, E') → MixedEngines x sub E' ∧ GivesAnswer records e q sel := by
  induction h with
  | selected h =>
    obtain ⟨a, b⟩ := mixed_engine hb hne hn hE h
    refine ⟨?_, b⟩
    rw [a]
    simp
  | other h _ ih =>
    obtain ⟨a, b⟩ := mixed_engine hb hne hn hE h
    obtain ⟨c, d⟩ := ih (b _ _ rfl).1
    refine ⟨?_, d⟩
    have hno : ¬ EndsIn records e _ := fun h => by cases a.mpr h
    rw [c]
    constructor
    · rintro ⟨n, hn, h⟩
      exact ⟨n, by rcases List.mem_cons.mp hn with h | h <;> simp [h], h⟩
    · rintro ⟨n, hn, hend⟩
      simp only [List.mem_cons] at hn
      rcases hn with rfl | rfl | hn
      · exact ⟨_, List.mem_cons_self, hend⟩
      · exact absurd hend hno
      · exact ⟨n, List.mem_cons_of_mem _ hn, hend⟩
  | panic h =>
    obtain ⟨a, -⟩ := mixed_engine hb hne hn hE h
    exact ⟨⟨fun _ => ⟨_, by simp, a.mp rfl⟩, fun _ => rfl⟩, fun q E' h => by cases h⟩

theorem mixed_answered (hb : MixedBehind x records sub) (hne : ∃ u t f, FileGives records u t f)
    (hn : PatNoForks records) {can : List EngineName → EngineName → Prop} {events : List ReadEvent}
    {results : List SearchResult} {E E' : Engines} (h : Answered (enginesAnswer translate can) E events results E')
    (hE : MixedEngines x sub E) :
    MixedEngines x sub E' ∧ ∀ e ∈ events, ∃ o s, can o s ∧ ∀ n ∈ s :: o, ¬ EndsIn records e n := by
  induction h with
  | nil => exact ⟨hE, by simp⟩
  | cons h _ ih =>
    obtain ⟨o, sel, hc, h⟩ := h
    obtain ⟨a, b⟩ := mixed_factory hb hne hn h hE
    obtain ⟨i1, i2⟩ := ih (b _ _ rfl).1
    refine ⟨i1, fun e he => ?_⟩
    rcases List.mem_cons.mp he with rfl | he
    · exact ⟨o, sel, hc, fun n hn h => by cases a.mpr ⟨n, hn, h⟩⟩
    · exact i2 e he

end

end Gosstrak
