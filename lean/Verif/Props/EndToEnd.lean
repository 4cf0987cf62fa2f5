import Verif.Spec.EndToEnd
import Verif.Props.Encode
import Verif.Props.Load
import Verif.Props.Main

/-!
C89: from the file of subscriptions and a tag to the reports.
-/
namespace Gosstrak

theorem patternText_prefix (sc : Scheme) (fields : List Str) :
    "urn:epc:pat:".toList <+: toLower (sc.patternText fields) := by
  have e : toLower "urn:epc:pat:".toList = "urn:epc:pat:".toList := by decide +kernel
  refine ⟨toLower (sc.typeName ++ ":".toList ++ ['.'].intercalate fields), ?_⟩
  rw [← e]
  unfold Scheme.patternText toLower
  generalize "urn:epc:pat:".toList = P
  generalize ":".toList = Q
  simp

/-- what the loaded map holds, in terms of the file -/
theorem loaded_mem {records : List (List Str)} {sub : Subs} (hf : FileOk records)
    (hm : IsMap sub)
    (h : ∀ uri, mapGet sub uri = if "http".toList <+: uri ∧ recordPatterns records uri ≠ [] then
        some (recordPatterns records uri) else none) (uri pat : Str) :
    (∃ pats, (uri, pats) ∈ sub ∧ pat ∈ pats) ↔
      ∃ sc fields, FileSubscribes records uri sc fields ∧ pat = sc.patternText fields := by
  have hrec : pat ∈ recordPatterns records uri ↔ ∃ r ∈ records, (r.head?).map toLower = some uri ∧
      pat ∈ r.tail ∧ "urn:epc:pat:".toList <+: toLower pat := by
    unfold recordPatterns
    rw [List.mem_flatMap]
    constructor
    · rintro ⟨r, hr, hp⟩
      split at hp
      · rename_i hu
        rw [List.mem_filter, decide_eq_true_iff] at hp
        exact ⟨r, hr, hu, hp⟩
      · cases hp
    · rintro ⟨r, hr, hu, hp⟩
      refine ⟨r, hr, ?_⟩
      rw [if_pos hu, List.mem_filter, decide_eq_true_iff]
      exact hp
  constructor
  · rintro ⟨pats, h1, h2⟩
    have h3 := mapGet_of_mem hm h1
    rw [h] at h3
    split at h3
    · rename_i hc
      cases h3
      obtain ⟨r, hr, hu, hp, hpre⟩ := hrec.mp h2
      obtain ⟨sc, fields, hw, e⟩ := (hf r hr).2 pat hp hpre
      exact ⟨sc, fields, ⟨hw, hc.1, r, hr, hu, e ▸ hp⟩, e⟩
    · cases h3
  · rintro ⟨sc, fields, ⟨hw, hh, r, hr, hu, hp⟩, rfl⟩
    have h2 := hrec.mpr ⟨r, hr, hu, hp, patternText_prefix sc fields⟩
    refine ⟨_, mapGet_mem (by rw [h, if_pos ⟨hh, List.ne_nil_of_mem h2⟩]), h2⟩

/-- who subscribes with which bits, in terms of the file -/
theorem loaded_subscribes (x : Binutil) (hx : x.Ok) {records : List (List Str)} {sub order : Subs}
    (hp : order.Perm sub)
    (h : ∀ uri pat, (∃ pats, (uri, pats) ∈ sub ∧ pat ∈ pats) ↔
      ∃ sc fields, FileSubscribes records uri sc fields ∧ pat = sc.patternText fields) (uri k : Str) :
    Subscribes x.encoder order uri k ↔
      ∃ sc fields, FileSubscribes records uri sc fields ∧ x.encoder sc.typeName fields = some k := by
  constructor
  · rintro ⟨pats, h1, pat, h2, t, fs, h3, h4⟩
    obtain ⟨sc, fields, h5, rfl⟩ := (h uri pat).mp ⟨pats, hp.mem_iff.mp h1, h2⟩
    obtain ⟨rfl, rfl⟩ := (C31_pattern sc fields h5.1 t fs).mp h3
    refine ⟨sc, fs, h5, ?_⟩
    rcases h4 with h4 | ⟨h4, -⟩
    · exact h4
    · obtain ⟨s, e, -⟩ := encoder_carries x hx sc fs (wellFormed_encodable sc fs h5.1)
      rw [e] at h4; cases h4
  · rintro ⟨sc, fields, h1, h2⟩
    obtain ⟨pats, h3, h4⟩ := (h uri _).mpr ⟨sc, fields, h1, rfl⟩
    exact ⟨pats, hp.mem_iff.mpr h3, _, h4, _, _, (C31_pattern sc fields h1.1 _ _).mpr ⟨rfl, rfl⟩, Or.inl h2⟩

/-- the bits of a well-formed pattern start exactly the tags that have its fields -/
theorem encoder_prefix (x : Binutil) (hx : x.Ok) {sc : Scheme} {fields : List Str} {k : Str}
    (hw : sc.WellFormed fields) (hk : x.encoder sc.typeName fields = some k) :
    IsBitStr k ∧ 11 ≤ k.length ∧ k.length ≤ 96 ∧
      ∀ id : List Byte, id.length = 12 → (k <+: bitsOf id ↔ sc.Has id fields) := by
  obtain ⟨s, e1, e2, e3, e4, -⟩ := encoder_carries x hx sc fields (wellFormed_encodable sc fields hw)
  obtain ⟨s', e1', e5⟩ := C40_selects x hx sc fields (wellFormed_encodable sc fields hw)
  rw [hk] at e1 e1'; cases e1; cases e1'
  refine ⟨e2, e3, e4, fun id hl => ?_⟩
  rw [← (e5 id hl).1, matchID_prefix0 e2 ⟨by omega, by omega⟩]
  simp

/-- equal bits, equal tags -/
theorem encoder_sameTags (x : Binutil) (hx : x.Ok) {sc sc' : Scheme} {f f' : List Str} {k : Str}
    (hw : sc.WellFormed f) (hk : x.encoder sc.typeName f = some k)
    (hw' : sc'.WellFormed f') (hk' : x.encoder sc'.typeName f' = some k) : SameTags sc f sc' f' := by
  have a := (encoder_prefix x hx hw hk).2.2.2
  have b := (encoder_prefix x hx hw' hk').2.2.2
  exact ⟨fun id hl h => (b id hl).mp ((a id hl).mpr h), fun id hl h => (a id hl).mp ((b id hl).mpr h)⟩

theorem mem_bytes_of_subscribes {mk : Encoder} {sub : Subs} {k u : Str} (h : Subscribes mk sub u k) :
    ∃ v, (k, v) ∈ toByteSubscriptions mk sub := by
  have hm := isMap_toByteSubscriptions mk sub
  have h1 := List.mem_reverse.mpr ((mem_storeOrder mk sub u k).mpr h)
  cases e : mapGet (storeOrder mk sub).reverse k with
  | some v => exact ⟨v, (mapGet_iff hm k v).mp (by rw [mapGet_toByteSubscriptions, e])⟩
  | none =>
    obtain ⟨v, hv⟩ := (mapGet_isSome (storeOrder mk sub).reverse k).mpr (List.mem_map.mpr ⟨_, h1, rfl⟩)
    rw [e] at hv; cases hv

/-- reports from part of the bits, in terms of the file -/
theorem reports_answer (x : Binutil) (hx : x.Ok) {records : List (List Str)} {order : Subs}
    (P : Scheme → List Str → Prop)
    (h : ∀ uri k, Subscribes x.encoder order uri k ↔
      ∃ sc fields, FileSubscribes records uri sc fields ∧ x.encoder sc.typeName fields = some k)
    (bsub : FlatSubs) (hb : ∀ e ∈ bsub, e ∈ toByteSubscriptions x.encoder order)
    (hP : ∀ k v, (k, v) ∈ toByteSubscriptions x.encoder order → ∀ u sc f, FileSubscribes records u sc f →
      x.encoder sc.typeName f = some k → P sc f → (k, v) ∈ bsub)
    (id : List Byte) (hl : id.length = 12) (uris : List Str) (hr : ReportsInKeyOrder bsub id uris)
    (pc : List Byte) (ident : Str) (htr : translate pc id = some (ident, false)) :
    ∃ r, finishSearch translate pc id uris = some r ∧ AnswersFor P records id ident r := by
  obtain ⟨hits, -, h2, rfl⟩ := hr
  have sound : ∀ u ∈ hits.map Prod.snd, Due records id u := by
    intro u hu
    obtain ⟨⟨k, u'⟩, hk, rfl⟩ := List.mem_map.mp hu
    obtain ⟨hmem, hpre⟩ := (h2 k u').mp hk
    obtain ⟨sc, f, hs, he⟩ := (h u' k).mp (mem_toByteSubscriptions (hb _ hmem))
    exact ⟨sc, f, hs, ((encoder_prefix x hx hs.1 he).2.2.2 id hl).mp hpre⟩
  have complete : ∀ u sc fields, FileSubscribes records u sc fields → P sc fields → sc.Has id fields →
      ∃ v ∈ hits.map Prod.snd, ∃ sc' fields', FileSubscribes records v sc' fields' ∧
        SameTags sc fields sc' fields' := by
    intro u sc f hs hp hh
    obtain ⟨k, e, -⟩ := encoder_carries x hx sc f (wellFormed_encodable sc f hs.1)
    obtain ⟨v, hv⟩ := mem_bytes_of_subscribes ((h u k).mpr ⟨sc, f, hs, e⟩)
    have hpre := ((encoder_prefix x hx hs.1 e).2.2.2 id hl).mpr hh
    obtain ⟨sc', f', hs', e'⟩ := (h v k).mp (mem_toByteSubscriptions hv)
    exact ⟨v, List.mem_map.mpr ⟨(k, v), (h2 k v).mpr ⟨hP k v hv u sc f hs e hp, hpre⟩, rfl⟩, sc', f', hs',
      encoder_sameTags x hx hs.1 e hs'.1 e'⟩
  unfold finishSearch
  by_cases h0 : (hits.map Prod.snd).length = 0
  · rw [if_pos h0]
    have h0' := List.length_eq_zero_iff.mp h0
    exact ⟨_, rfl, sound, complete, fun hne => absurd h0' hne, fun _ => rfl⟩
  · rw [if_neg h0, htr]
    exact ⟨_, rfl, sound, complete, fun _ => ⟨rfl, rfl⟩, fun he => absurd (List.length_eq_zero_iff.mpr he) h0⟩

theorem file_covered (x : Binutil) (hx : x.Ok) {records : List (List Str)} {order : Subs}
    (h : ∀ uri k, Subscribes x.encoder order uri k ↔
      ∃ sc fields, FileSubscribes records uri sc fields ∧ x.encoder sc.typeName fields = some k)
    (id : List Byte) (hl : id.length = 12) : Covered (toByteSubscriptions x.encoder order) id := by
  intro k u hm
  obtain ⟨sc, f, hs, e⟩ := (h u k).mp (mem_toByteSubscriptions hm)
  obtain ⟨a, b, c, -⟩ := encoder_prefix x hx hs.1 e
  exact ⟨a, by omega, by omega⟩

/-! ## C89 -/

/-- A file of well-formed EPC patterns is loaded, and whatever the order in which the map is then gone
    through, a search for a tag of 96 bits with an identity answers what the file says: the list engine
    and the fresh splay tree for all patterns, the Patricia trie for all but one that selects every tag
    that any pattern of the file selects. -/
theorem C89_engines (x : Binutil) (hx : x.Ok) (records : List (List Str)) (hf : FileOk records) :
    ∃ sub, loadRecords records = some sub ∧ ∀ order : Subs, order.Perm sub →
      ∀ (pc id : List Byte) (ident : Str), id.length = 12 →
        translate pc id = some (ident, false) →
        (∃ r, (newList x.encoder order).search translate pc id = some r ∧
          AnswersFor (fun _ _ => True) records id ident r) ∧
        (∃ r, (newPatricia x.encoder order).searchEngine translate pc id = some r ∧
          AnswersFor (NotWidest records) records id ident r) ∧
        ((∃ u sc f, FileSubscribes records u sc f) →
          ∃ t r t', newSplay x.encoder order = some t ∧
            t.searchEngine translate pc id = some (r, t') ∧
            AnswersFor (fun _ _ => True) records id ident r) := by
  obtain ⟨sub, l1, l2, l3⟩ := C65_loaded records fun r hr => (hf r hr).1
  refine ⟨sub, l1, fun order hp pc id ident hl htr => ?_⟩
  have hmem := loaded_mem hf l2 l3
  have hs := loaded_subscribes x hx hp hmem
  have hc := file_covered x hx hs id hl
  have hid : id ≠ [] := by rintro rfl; cases hl
  refine ⟨?_, ?_, ?_⟩
  · obtain ⟨uris, h1, h2, h3⟩ := C16_search x.encoder translate order pc id hc
    obtain ⟨r, h4, h5⟩ := reports_answer x hx (fun _ _ => True) hs _ (fun _ h => h)
      (fun _ _ h _ _ _ _ _ _ => h) id hl uris h1 pc ident htr
    refine ⟨r, ?_, h5⟩
    rw [← h4]
    unfold finishSearch
    by_cases h0 : uris = []
    · rw [h2 h0, h0]; rfl
    · rw [h3 h0, htr, if_neg (by simpa using h0)]; rfl
  · have hu : UrisNonEmpty order := by
      rintro ⟨u, pats⟩ he e0
      have := mapGet_of_mem l2 (hp.mem_iff.mp he)
      rw [l3] at this
      split at this
      · rename_i hh
        rw [show u = [] from e0] at hh
        exact absurd hh.1 (by decide)
      · cases this
    obtain ⟨uris, h1, h2⟩ := C18_search x.encoder translate order hu pc id hid hc
    obtain ⟨r, h4, h5⟩ := reports_answer x hx (NotWidest records) hs _ (fun e he => (List.mem_filter.mp he).1)
      (fun k v hkv u sc f hsub e hw => by
        rw [List.mem_filter, decide_eq_true_iff]
        refine ⟨hkv, ?_⟩
        rintro rfl
        obtain ⟨w, sc', f', g1, g2⟩ := hw
        obtain ⟨k', e', -⟩ := encoder_carries x hx sc' f' (wellFormed_encodable sc' f' g1.1)
        obtain ⟨v', hv'⟩ := mem_bytes_of_subscribes ((hs w k').mpr ⟨sc', f', g1, e'⟩)
        have hpre : lcp (mapKeys (toByteSubscriptions x.encoder order)) <+: k' :=
          (lcp_spec _ (List.ne_nil_of_mem ((mem_mapKeys _ k').mpr (List.mem_map.mpr ⟨_, hv', rfl⟩)))).1 k'
            ((mem_mapKeys _ k').mpr (List.mem_map.mpr ⟨_, hv', rfl⟩))
        refine g2 fun i hi hh => ?_
        exact ((encoder_prefix x hx hsub.1 e).2.2.2 i hi).mp
          (hpre.trans (((encoder_prefix x hx g1.1 e').2.2.2 i hi).mpr hh)))
      id hl uris h1 pc ident htr
    exact ⟨r, by rw [h2, h4], h5⟩
  · rintro ⟨u, sc, f, hsub⟩
    obtain ⟨k, e, -⟩ := encoder_carries x hx sc f (wellFormed_encodable sc f hsub.1)
    obtain ⟨v, hv⟩ := mem_bytes_of_subscribes ((hs u k).mpr ⟨sc, f, hsub, e⟩)
    obtain ⟨t, uris, t', q0, q1, q2⟩ := C22_first_search x.encoder translate order
      (List.ne_nil_of_mem hv) pc id hc
    obtain ⟨r, h4, h5⟩ := reports_answer x hx (fun _ _ => True) hs _ (fun _ h => h)
      (fun _ _ h _ _ _ _ _ _ => h) id hl uris q1 pc ident htr
    exact ⟨t, r, t', q0, by rw [q2, h4]; rfl, h5⟩

theorem exists_id96 {g : Str} (hg : IsBitStr g) (hl : g.length ≤ 96) :
    ∃ id : List Byte, id.length = 12 ∧ g <+: bitsOf id := by
  obtain ⟨id, h1, h2⟩ := exists_id (s := g ++ List.replicate (96 - g.length) '0') 12 (by omega)
    (by simp; omega) (by
      intro c hc
      rcases List.mem_append.mp hc with h | h
      · exact hg c h
      · rw [List.mem_replicate] at h; exact Or.inl h.2)
  exact ⟨id, h1, by rw [h2]; exact List.prefix_append _ _⟩

theorem bits_eq_of_short {k k' : Str} (hk : IsBitStr k) (hk' : IsBitStr k')
    (hl : k'.length ≤ 96) (hle : k.length ≤ k'.length)
    (h : ∀ id : List Byte, id.length = 12 → (k <+: bitsOf id ↔ k' <+: bitsOf id)) : k = k' := by
  obtain ⟨id, i1, i2⟩ := exists_id96 hk' hl
  obtain ⟨t, ht⟩ := List.prefix_of_prefix_length_le ((h id i1).mpr i2) i2 hle
  cases t with
  | nil => simpa using ht
  | cons c t =>
    exfalso
    subst ht
    simp only [List.length_append, List.length_cons] at hl
    obtain ⟨c', hc', hne⟩ : ∃ c' : Char, (c' = '0' ∨ c' = '1') ∧ c' ≠ c := by
      by_cases h0 : c = '0'
      · exact ⟨'1', Or.inr rfl, by rw [h0]; decide⟩
      · exact ⟨'0', Or.inl rfl, fun e => h0 e.symm⟩
    obtain ⟨id', j1, j2⟩ := exists_id96 (g := k ++ [c']) (by
      intro d hd
      rcases List.mem_append.mp hd with hd | hd
      · exact hk d hd
      · rw [List.mem_singleton] at hd; rw [hd]; exact hc') (by simp; omega)
    have j3 := (h id' j1).mp ((List.prefix_append k [c']).trans j2)
    have j4 : k ++ [c] <+: bitsOf id' := List.IsPrefix.trans ⟨t, by simp⟩ j3
    have j5 := (List.prefix_of_prefix_length_le j2 j4 (by simp)).eq_of_length (by simp)
    simp only [List.append_cancel_left_eq, List.cons.injEq, and_true] at j5
    exact hne j5

/-- equal tags, equal bits -/
theorem encoder_of_sameTags (x : Binutil) (hx : x.Ok) {sc sc' : Scheme} {f f' : List Str} {k k' : Str}
    (hw : sc.WellFormed f) (hk : x.encoder sc.typeName f = some k)
    (hw' : sc'.WellFormed f') (hk' : x.encoder sc'.typeName f' = some k') (h : SameTags sc f sc' f') :
    k = k' := by
  obtain ⟨a1, -, a2, a3⟩ := encoder_prefix x hx hw hk
  obtain ⟨b1, -, b2, b3⟩ := encoder_prefix x hx hw' hk'
  have e : ∀ id : List Byte, id.length = 12 → (k <+: bitsOf id ↔ k' <+: bitsOf id) := by
    intro id hl
    rw [a3 id hl, b3 id hl]
    exact ⟨h.1 id hl, h.2 id hl⟩
  rcases Nat.le_total k.length k'.length with hle | hle
  · exact bits_eq_of_short a1 b1 b2 hle e
  · exact (bits_eq_of_short b1 a1 a2 hle fun id hl => (e id hl).symm).symm

/-- the distinct bits with which a URI is reported correspond to its patterns -/
theorem due_patterns_keys (x : Binutil) (hx : x.Ok) {records : List (List Str)} {id : List Byte} {u : Str}
    (ks : List Str) (hn : ks.Nodup)
    (hks : ∀ k, k ∈ ks ↔ ∃ sc f, FileSubscribes records u sc f ∧ x.encoder sc.typeName f = some k ∧
      sc.Has id f) :
    (∃ l, DuePatterns records id u l) ∧ ∀ l, DuePatterns records id u l → ks.length = l.length := by
  constructor
  · have key : ∀ js : List Str, js.Nodup → (∀ k ∈ js, k ∈ ks) → ∃ l : List (Scheme × List Str),
        (∀ p ∈ l, FileSubscribes records u p.1 p.2 ∧ p.1.Has id p.2 ∧
          ∃ k ∈ js, x.encoder p.1.typeName p.2 = some k) ∧
        (∀ k ∈ js, ∃ p ∈ l, x.encoder p.1.typeName p.2 = some k) ∧
        l.Pairwise fun p q => ¬ SameTags p.1 p.2 q.1 q.2 := by
      intro js
      induction js with
      | nil => intro _ _; exact ⟨[], by simp, by simp, List.Pairwise.nil⟩
      | cons k js ih =>
        intro hnd hin
        rw [List.nodup_cons] at hnd
        obtain ⟨l, h1, h2, h3⟩ := ih hnd.2 fun k hk => hin k (List.mem_cons_of_mem _ hk)
        obtain ⟨sc, f, g1, g2, g3⟩ := (hks k).mp (hin k List.mem_cons_self)
        refine ⟨(sc, f) :: l, ?_, ?_, ?_⟩
        · intro p hp
          rcases List.mem_cons.mp hp with rfl | hp
          · exact ⟨g1, g3, k, List.mem_cons_self, g2⟩
          · obtain ⟨a, b, k', hk', c⟩ := h1 p hp
            exact ⟨a, b, k', List.mem_cons_of_mem _ hk', c⟩
        · intro k' hk'
          rcases List.mem_cons.mp hk' with rfl | hk'
          · exact ⟨_, List.mem_cons_self, g2⟩
          · obtain ⟨p, hp, e⟩ := h2 k' hk'
            exact ⟨p, List.mem_cons_of_mem _ hp, e⟩
        · refine List.Pairwise.cons ?_ h3
          intro q hq hs
          obtain ⟨a, -, k', hk', c⟩ := h1 q hq
          have := encoder_of_sameTags x hx g1.1 g2 a.1 c hs
          subst this
          exact hnd.1 hk'
    obtain ⟨l, h1, h2, h3⟩ := key ks hn fun _ h => h
    refine ⟨l, fun p hp => ⟨(h1 p hp).1, (h1 p hp).2.1⟩, fun sc f hs hh => ?_, h3⟩
    obtain ⟨k, e, -⟩ := encoder_carries x hx sc f (wellFormed_encodable sc f hs.1)
    obtain ⟨p, hp, e'⟩ := h2 k ((hks k).mpr ⟨sc, f, hs, e, hh⟩)
    exact ⟨p, hp, encoder_sameTags x hx hs.1 e (h1 p hp).1.1 e'⟩
  · intro l hd
    have hp : (l.map fun p => (x.encoder p.1.typeName p.2).getD []).Perm ks := by
      refine (List.perm_ext_iff_of_nodup ?_ hn).mpr ?_
      · rw [List.Nodup, List.pairwise_map]
        refine hd.distinct.imp_of_mem ?_
        intro p q hp hq hne e
        obtain ⟨a, ea, -⟩ := encoder_carries x hx p.1 p.2 (wellFormed_encodable _ _ (hd.due p hp).1.1)
        obtain ⟨b, eb, -⟩ := encoder_carries x hx q.1 q.2 (wellFormed_encodable _ _ (hd.due q hq).1.1)
        rw [ea, eb] at e
        simp only [Option.getD_some] at e
        subst e
        exact hne (encoder_sameTags x hx (hd.due p hp).1.1 ea (hd.due q hq).1.1 eb)
      · intro k
        rw [hks, List.mem_map]
        constructor
        · rintro ⟨p, hp, rfl⟩
          obtain ⟨a, ea, -⟩ := encoder_carries x hx p.1 p.2 (wellFormed_encodable _ _ (hd.due p hp).1.1)
          refine ⟨p.1, p.2, (hd.due p hp).1, ?_, (hd.due p hp).2⟩
          rw [ea]; rfl
        · rintro ⟨sc, f, hs, e, hh⟩
          obtain ⟨p, hp, hst⟩ := hd.all sc f hs hh
          obtain ⟨a, ea, -⟩ := encoder_carries x hx p.1 p.2 (wellFormed_encodable _ _ (hd.due p hp).1.1)
          refine ⟨p, hp, ?_⟩
          rw [ea, encoder_of_sameTags x hx hs.1 e (hd.due p hp).1.1 ea hst]
          rfl
    rw [← hp.length_eq, List.length_map]

/-- If no two URIs have patterns that select the same tags, the list engine reports the tag to exactly
    the URIs it is due to, as often as the URI has different patterns that select it. -/
theorem C89_exact (x : Binutil) (hx : x.Ok) (records : List (List Str)) (hf : FileOk records)
    (hr : NoRivals records) :
    ∃ sub, loadRecords records = some sub ∧ ∀ order : Subs, order.Perm sub →
      ∀ (pc id : List Byte) (ident : Str), id.length = 12 → translate pc id = some (ident, false) →
        ∃ r, (newList x.encoder order).search translate pc id = some r ∧
          (∀ u, u ∈ r.reportURIs ↔ Due records id u) ∧
          (∀ u, (∃ l, DuePatterns records id u l) ∧
            ∀ l, DuePatterns records id u l → r.reportURIs.count u = l.length) ∧
          (r.reportURIs ≠ [] → r.err = false ∧ r.pureIdentity = ident) ∧
          (r.reportURIs = [] → r.err = true) := by
  obtain ⟨sub, l1, l2, l3⟩ := C65_loaded records fun r hr => (hf r hr).1
  refine ⟨sub, l1, fun order hp pc id ident hl htr => ?_⟩
  have hs := loaded_subscribes x hx hp (loaded_mem hf l2 l3)
  have hc := file_covered x hx hs id hl
  obtain ⟨uris, ⟨hits, k1, k2, rfl⟩, h2, h3⟩ := C16_search x.encoder translate order pc id hc
  have hex := (C11_exact x.encoder order order (List.Perm.refl _) fun k u v hu hv => by
    obtain ⟨sc, f, a, b⟩ := (hs u k).mp hu
    obtain ⟨sc', f', a', b'⟩ := (hs v k).mp hv
    exact hr u v sc f sc' f' a a' (encoder_sameTags x hx a.1 b a'.1 b')).2
  have hhit : ∀ k u, (k, u) ∈ hits ↔ ∃ sc f, FileSubscribes records u sc f ∧
      x.encoder sc.typeName f = some k ∧ sc.Has id f := by
    intro k u
    rw [k2, hex, hs]
    constructor
    · rintro ⟨⟨sc, f, a, b⟩, c⟩
      exact ⟨sc, f, a, b, ((encoder_prefix x hx a.1 b).2.2.2 id hl).mp c⟩
    · rintro ⟨sc, f, a, b, c⟩
      exact ⟨⟨sc, f, a, b⟩, ((encoder_prefix x hx a.1 b).2.2.2 id hl).mpr c⟩
  have hdue : ∀ u, u ∈ hits.map Prod.snd ↔ Due records id u := by
    intro u
    rw [List.mem_map]
    constructor
    · rintro ⟨⟨k, u'⟩, hk, rfl⟩
      obtain ⟨sc, f, a, -, c⟩ := (hhit k u').mp hk
      exact ⟨sc, f, a, c⟩
    · rintro ⟨sc, f, a, c⟩
      obtain ⟨k, e, -⟩ := encoder_carries x hx sc f (wellFormed_encodable sc f a.1)
      exact ⟨(k, u), (hhit k u).mpr ⟨sc, f, a, e, c⟩, rfl⟩
  have hcount : ∀ u, (∃ l, DuePatterns records id u l) ∧
      ∀ l, DuePatterns records id u l → (hits.map Prod.snd).count u = l.length := by
    intro u
    have hkn : ((hits.filter fun p => decide (p.2 = u)).map Prod.fst).Nodup :=
      (k1.imp fun h => by rintro rfl; exact List.lt_irrefl _ h : List.Nodup _).sublist
        (List.filter_sublist.map _)
    obtain ⟨d1, d2⟩ := due_patterns_keys x hx (records := records) (id := id) (u := u) _ hkn fun k => by
      rw [← hhit, List.mem_map]
      constructor
      · rintro ⟨⟨k', u'⟩, h, rfl⟩
        rw [List.mem_filter, decide_eq_true_iff] at h
        obtain ⟨a, rfl⟩ := h
        exact a
      · intro h
        exact ⟨(k, u), List.mem_filter.mpr ⟨h, by simp⟩, rfl⟩
    refine ⟨d1, fun l hd => ?_⟩
    rw [← d2 l hd, List.length_map, List.count_eq_countP, List.countP_map, List.countP_eq_length_filter]
    congr 2
    funext p
    simp [Bool.beq_eq_decide_eq]
  by_cases h0 : hits.map Prod.snd = []
  · exact ⟨_, h2 h0, by rw [← h0]; exact hdue, by rw [← h0]; exact hcount, fun h => absurd rfl h, fun _ => rfl⟩
  · refine ⟨⟨ident, hits.map Prod.snd, false⟩, ?_, hdue, hcount, fun _ => ⟨rfl, rfl⟩, fun h => absurd h h0⟩
    rw [h3 h0, htr]; rfl

/-- The reports of a batch of tags: each destination gets the identities of the tags due to it, in the
    order of the tags, each as often as the destination has different patterns that select the tag; a
    destination to which no tag is due gets nothing. -/
theorem C89_batch (x : Binutil) (hx : x.Ok) (records : List (List Str)) (hf : FileOk records)
    (hr : NoRivals records) :
    ∃ sub, loadRecords records = some sub ∧ ∀ order : Subs, order.Perm sub →
      ∀ (batch : List (List Byte × List Byte)) (ident : List Byte × List Byte → Str),
        (∀ e ∈ batch, e.2.length = 12 ∧ translate e.1 e.2 = some (ident e, false)) →
        ∃ results, batch.mapM (fun e => (newList x.encoder order).search translate e.1 e.2) = some results ∧
          ∀ d, (mapGet (collectReports results) d = none ↔ ∀ e ∈ batch, ¬ Due records e.2 d) ∧
            ∃ n : List Byte × List Byte → Nat,
              (∀ e ∈ batch, ∃ l, DuePatterns records e.2 d l ∧ n e = l.length) ∧
              (mapGet (collectReports results) d).getD [] =
                batch.flatMap fun e => List.replicate (n e) (ident e) := by
  obtain ⟨sub, l1, l2⟩ := C89_exact x hx records hf hr
  refine ⟨sub, l1, fun order hp batch ident hb => ?_⟩
  have key : ∃ (results : List SearchResult) (n : Str → List Byte × List Byte → Nat),
      batch.mapM (fun e => (newList x.encoder order).search translate e.1 e.2) = some results ∧
      ∀ d, (∀ e ∈ batch, (∃ l, DuePatterns records e.2 d l ∧ n d e = l.length) ∧
          (n d e = 0 ↔ ¬ Due records e.2 d)) ∧
        owed results d = batch.flatMap fun e => List.replicate (n d e) (ident e) := by
    let f := fun e : List Byte × List Byte => (newList x.encoder order).search translate e.1 e.2
    refine ⟨batch.map fun e => (f e).getD ⟨[], [], true⟩,
      fun d e => ((f e).getD ⟨[], [], true⟩).reportURIs.count d, ?_, fun d => ⟨?_, ?_⟩⟩
    · have : ∀ l : List (List Byte × List Byte), (∀ e ∈ l, ∃ r, f e = some r) →
          l.mapM f = some (l.map fun e => (f e).getD ⟨[], [], true⟩) := by
        intro l
        induction l with
        | nil => intro _; rfl
        | cons e l ih =>
          intro h
          obtain ⟨r, hr⟩ := h e List.mem_cons_self
          rw [List.mapM_cons, ih fun e he => h e (List.mem_cons_of_mem _ he), hr, List.map_cons, hr]
          rfl
      exact this batch fun e he => by
        obtain ⟨r, h, -⟩ := l2 order hp e.1 e.2 (ident e) (hb e he).1 (hb e he).2
        exact ⟨r, h⟩
    · intro e he
      obtain ⟨r, h1, h2, h3, -⟩ := l2 order hp e.1 e.2 (ident e) (hb e he).1 (hb e he).2
      have : f e = some r := h1
      dsimp only
      rw [this, Option.getD_some]
      obtain ⟨⟨l, hl⟩, h4⟩ := h3 d
      refine ⟨⟨l, hl, h4 l hl⟩, ?_⟩
      rw [List.count_eq_zero, h2]
    · unfold owed
      rw [List.flatMap_map]
      have : ∀ l : List (List Byte × List Byte), (∀ e ∈ l, e ∈ batch) →
          (l.flatMap fun e => if ((f e).getD ⟨[], [], true⟩).err then [] else
            List.replicate (((f e).getD ⟨[], [], true⟩).reportURIs.count d)
              ((f e).getD ⟨[], [], true⟩).pureIdentity) =
          l.flatMap fun e => List.replicate (((f e).getD ⟨[], [], true⟩).reportURIs.count d) (ident e) := by
        intro l
        induction l with
        | nil => intro _; rfl
        | cons e l ih =>
          intro h
          rw [List.flatMap_cons, List.flatMap_cons, ih fun e he => h e (List.mem_cons_of_mem _ he)]
          congr 1
          obtain ⟨r, h1, -, -, h4, h5⟩ := l2 order hp e.1 e.2 (ident e) (hb e (h e List.mem_cons_self)).1
            (hb e (h e List.mem_cons_self)).2
          have : f e = some r := h1
          rw [this, Option.getD_some]
          by_cases h0 : r.reportURIs = []
          · rw [h5 h0, h0]; rfl
          · rw [(h4 h0).1, (h4 h0).2]; rfl
      exact this batch fun _ h => h
  obtain ⟨results, n, h1, h2⟩ := key
  refine ⟨results, h1, fun d => ?_⟩
  obtain ⟨h3, h4⟩ := h2 d
  have h5 := C61_collected results d
  refine ⟨?_, n d, fun e he => (h3 e he).1, ?_⟩
  · rw [h5]
    have : owed results d = [] ↔ ∀ e ∈ batch, ¬ Due records e.2 d := by
      rw [h4, List.flatMap_eq_nil_iff]
      constructor
      · intro h e he
        have := h e he
        rw [List.replicate_eq_nil_iff] at this
        exact (h3 e he).2.mp this
      · intro h e he
        rw [(h3 e he).2.mpr (h e he)]; rfl
    rw [← this]
    by_cases h0 : owed results d = []
    · rw [if_pos h0]; exact ⟨fun _ => h0, fun _ => rfl⟩
    · rw [if_neg h0]; exact ⟨fun h => (by cases h), fun h => absurd h h0⟩
  · rw [h5]
    split
    · rename_i h; rw [← h4, h]; rfl
    · rw [← h4]; rfl

theorem canonical_unique (sc : Scheme) {cp ref ref' : Str} (h : sc.Canonical cp ref)
    (h' : sc.Canonical cp ref') (e : decVal ref' = decVal ref) : ref' = ref := by
  cases sc with
  | sgtin => exact padded_unique _ _ _ _ ⟨h'.1, h'.2, e⟩ ⟨h.1, h.2, rfl⟩
  | sscc => exact padded_unique _ _ _ _ ⟨h'.1, h'.2, e⟩ ⟨h.1, h.2, rfl⟩
  | grai => exact padded_unique _ _ _ _ ⟨h'.1, h'.2.1, e⟩ ⟨h.1, h.2.1, rfl⟩
  | giai => exact numeral_unique _ _ _ (e ▸ h'.1) h.1

/-- A tag made of well-formed fields has the identity with these fields, and it is due to exactly the
    URIs with a pattern of the same scheme that repeats the first fields of the tag (the filter value in
    any spelling). -/
theorem C89_made (x : Binutil) (hx : x.Ok) (records : List (List Str)) (sc : Scheme)
    (fv cp ref ser : Str) (ht : sc.WellFormed (sc.allFields fv cp ref ser)) :
    ∃ id, sc.make x fv cp ref ser = some ⟨id, [], []⟩ ∧ id.length = 12 ∧
      (∀ p0 p1 : Byte, p0.toNat % 2 = 0 →
        translate [p0, p1] id = some (sc.urn (sc.allFields fv cp ref ser).tail, false)) ∧
      ∀ u, Due records id u ↔ ∃ fv' rest, FileSubscribes records u sc (fv' :: rest) ∧
        decVal fv' = decVal fv ∧ rest <+: (sc.allFields fv cp ref ser).tail := by
  obtain ⟨id, m1, m2, m3⟩ := make_has x hx sc fv cp ref ser (wellFormed_encodable _ _ ht)
  have hh := has_head sc id _ m3
  have hparts : IsCompanyPrefix cp ∧ sc.Canonical cp ref ∧
      (sc.hasSerial → Numeral (decVal ser) ser) := by
    unfold Scheme.allFields at ht
    split at ht
    · exact ⟨ht.2.1, ht.2.2.1, fun _ => ht.2.2.2.2.1⟩
    · rename_i hs; exact ⟨ht.2.1, ht.2.2, fun h => absurd h hs⟩
  obtain ⟨hcp, href, hser⟩ := hparts
  have hvals : field id 8 3 = decVal fv ∧ partitionOf id = partitionFor cp ∧
      companyOf id = decVal cp ∧ secondOf sc.width id = decVal ref ∧
      (sc.hasSerial → serialOf id = decVal ser) := by
    unfold Scheme.allFields at m3
    split at m3
    · obtain ⟨a, b, c, d, e, f⟩ := m3
      exact ⟨b, c, d, e, fun _ => f⟩
    · rename_i hs
      obtain ⟨a, b, c, d, e⟩ := m3
      exact ⟨b, c, d, e, fun h => absurd h hs⟩
  obtain ⟨b1, b2, b3, b4, b5⟩ := hvals
  refine ⟨id, m1, m2, fun p0 p1 hp => ?_, fun u => ?_⟩
  · rw [urn_of_fields p0 p1 hp sc id m2 hh cp ref ser hcp href b2 b3 b4 fun h => by
      rw [b5 h]; exact hser h]
    unfold Scheme.allFields
    split <;> rfl
  · have hc : ∀ cp', IsCompanyPrefix cp' → partitionOf id = partitionFor cp' →
        companyOf id = decVal cp' → cp' = cp := by
      intro cp' h' e1 e2
      have hl := partitionFor_inj hcp h' (b2.symm.trans e1)
      exact padded_unique _ _ _ _ ⟨h'.1, hl.symm, by rw [← e2, b3]⟩ ⟨hcp.1, rfl, rfl⟩
    have htail : ∀ rest : List Str, rest <+: (sc.allFields fv cp ref ser).tail ↔
        rest = [] ∨ rest = [cp] ∨ rest = [cp, ref] ∨ (sc.hasSerial ∧ rest = [cp, ref, ser]) := by
      intro rest
      unfold Scheme.allFields
      constructor
      · intro h
        split at h
        · rename_i hs
          match rest, h with
          | [], _ => exact Or.inl rfl
          | [a], h => simp only [List.tail_cons, List.cons_prefix_cons] at h; obtain ⟨rfl, -⟩ := h; simp
          | [a, b], h => simp only [List.tail_cons, List.cons_prefix_cons] at h; obtain ⟨rfl, rfl, -⟩ := h; simp
          | [a, b, c], h =>
            simp only [List.tail_cons, List.cons_prefix_cons] at h; obtain ⟨rfl, rfl, rfl, -⟩ := h; simp [hs]
          | a :: b :: c :: d :: l, h => simp [List.cons_prefix_cons] at h
        · match rest, h with
          | [], _ => exact Or.inl rfl
          | [a], h => simp only [List.tail_cons, List.cons_prefix_cons] at h; obtain ⟨rfl, -⟩ := h; simp
          | [a, b], h => simp only [List.tail_cons, List.cons_prefix_cons] at h; obtain ⟨rfl, rfl, -⟩ := h; simp
          | a :: b :: c :: l, h => simp [List.cons_prefix_cons] at h
      · rintro (rfl | rfl | rfl | ⟨hs, rfl⟩)
        · exact List.nil_prefix
        · split <;> simp [List.cons_prefix_cons]
        · split <;> simp [List.cons_prefix_cons]
        · rw [if_pos hs]; exact List.prefix_rfl
    constructor
    · rintro ⟨sc', f, hs, hhas⟩
      have hsc : sc' = sc := by
        have := has_head sc' id f hhas
        rw [hh] at this
        revert this
        cases sc <;> cases sc' <;> decide
      subst hsc
      have hw := hs.1
      match f, hs, hw, hhas with
      | [fv'], hs, hw, ⟨_, c1⟩ => exact ⟨fv', [], hs, by rw [← c1, b1], (htail _).mpr (Or.inl rfl)⟩
      | [fv', cp'], hs, hw, ⟨_, c1, c2, c3⟩ =>
        have := hc cp' hw.2 c2 c3
        subst this
        exact ⟨fv', _, hs, by rw [← c1, b1], (htail _).mpr (Or.inr (Or.inl rfl))⟩
      | [fv', cp', ref'], hs, hw, ⟨_, c1, c2, c3, c4⟩ =>
        have := hc cp' hw.2.1 c2 c3
        subst this
        have := canonical_unique _ href hw.2.2 (by rw [← c4, b4])
        subst this
        exact ⟨fv', _, hs, by rw [← c1, b1], (htail _).mpr (Or.inr (Or.inr (Or.inl rfl)))⟩
      | [fv', cp', ref', ser'], hs, hw, ⟨_, c1, c2, c3, c4, c5⟩ =>
        obtain ⟨_, w2, w3, w4, w5, _⟩ := hw
        have := hc cp' w2 c2 c3
        subst this
        have := canonical_unique _ href w3 (by rw [← c4, b4])
        subst this
        have e : decVal ser' = decVal ser := by rw [← c5, b5 w4]
        have := numeral_unique _ _ _ (e ▸ w5) (hser w4)
        subst this
        exact ⟨fv', _, hs, by rw [← c1, b1], (htail _).mpr (Or.inr (Or.inr (Or.inr ⟨w4, rfl⟩)))⟩
    · rintro ⟨fv', rest, hs, hfv, hrest⟩
      refine ⟨sc, _, hs, ?_⟩
      rcases (htail rest).mp hrest with rfl | rfl | rfl | ⟨hser', rfl⟩
      · exact ⟨hh, by rw [b1, hfv]⟩
      · exact ⟨hh, by rw [b1, hfv], b2, b3⟩
      · exact ⟨hh, by rw [b1, hfv], b2, b3, b4⟩
      · exact ⟨hh, by rw [b1, hfv], b2, b3, b4, b5 hser'⟩

/-- Where two URIs have patterns that select the same tags, and no others that select this tag, only one
    of them gets the report, and which one depends on the order in which the map is gone through. -/
theorem C89_rivals (x : Binutil) (hx : x.Ok) (records : List (List Str)) (hf : FileOk records)
    (u v : Str) (huv : u ≠ v) (sc sc' : Scheme) (f f' : List Str)
    (hu : FileSubscribes records u sc f) (hv : FileSubscribes records v sc' f')
    (hsame : SameTags sc f sc' f') (id : List Byte) (hl : id.length = 12) (hh : sc.Has id f)
    (only : ∀ w, w = u ∨ w = v → ∀ sc'' f'', FileSubscribes records w sc'' f'' → sc''.Has id f'' →
      SameTags sc f sc'' f'')
    (pc : List Byte) (ident : Str) (htr : translate pc id = some (ident, false)) :
    ∃ sub, loadRecords records = some sub ∧
      (∀ order : Subs, order.Perm sub → ∃ r, (newList x.encoder order).search translate pc id = some r ∧
        ¬ (u ∈ r.reportURIs ∧ v ∈ r.reportURIs)) ∧
      ∀ w, w = u ∨ w = v → ∃ order r, order.Perm sub ∧
        (newList x.encoder order).search translate pc id = some r ∧ w ∈ r.reportURIs := by
  obtain ⟨sub, l1, l2, l3⟩ := C65_loaded records fun r hr => (hf r hr).1
  have hs := fun (order : Subs) (hp : order.Perm sub) =>
    loaded_subscribes x hx hp (loaded_mem hf l2 l3)
  obtain ⟨k, e, -⟩ := encoder_carries x hx sc f (wellFormed_encodable sc f hu.1)
  obtain ⟨k', e', -⟩ := encoder_carries x hx sc' f' (wellFormed_encodable sc' f' hv.1)
  have hk := encoder_of_sameTags x hx hu.1 e hv.1 e' hsame
  subst hk
  have hpre := ((encoder_prefix x hx hu.1 e).2.2.2 id hl).mpr hh
  obtain ⟨c1, c2, c3⟩ := C12_one_uri_lost x.encoder sub l2 u v k huv
    ((hs sub (List.Perm.refl _) u k).mpr ⟨sc, f, hu, e⟩)
    ((hs sub (List.Perm.refl _) v k).mpr ⟨sc', f', hv, e'⟩)
  have run : ∀ order : Subs, order.Perm sub → ∃ r, (newList x.encoder order).search translate pc id = some r ∧
      ∀ w, w ∈ r.reportURIs ↔ ∃ j, (j, w) ∈ toByteSubscriptions x.encoder order ∧ j <+: bitsOf id := by
    intro order hp
    have hc := file_covered x hx (hs order hp) id hl
    obtain ⟨uris, ⟨hits, -, k2, rfl⟩, h2, h3⟩ := C16_search x.encoder translate order pc id hc
    have hw : ∀ w, w ∈ hits.map Prod.snd ↔
        ∃ j, (j, w) ∈ toByteSubscriptions x.encoder order ∧ j <+: bitsOf id := by
      intro w
      rw [List.mem_map]
      constructor
      · rintro ⟨⟨j, w'⟩, h, rfl⟩; exact ⟨j, (k2 j w').mp h⟩
      · rintro ⟨j, h⟩; exact ⟨(j, w), (k2 j w).mpr h, rfl⟩
    by_cases h0 : hits.map Prod.snd = []
    · exact ⟨_, h2 h0, by rw [← h0]; exact hw⟩
    · exact ⟨⟨ident, hits.map Prod.snd, false⟩, by rw [h3 h0, htr]; rfl, hw⟩
  refine ⟨sub, l1, fun order hp => ?_, fun w hw => ?_⟩
  · obtain ⟨r, r1, r2⟩ := run order hp
    refine ⟨r, r1, ?_⟩
    rintro ⟨mu, mv⟩
    have back : ∀ w, w = u ∨ w = v → w ∈ r.reportURIs → (k, w) ∈ toByteSubscriptions x.encoder order := by
      intro w hw hm
      obtain ⟨j, j1, j2⟩ := (r2 w).mp hm
      obtain ⟨sc'', f'', a, b⟩ := (hs order hp w j).mp (mem_toByteSubscriptions j1)
      have := only w hw sc'' f'' a (((encoder_prefix x hx a.1 b).2.2.2 id hl).mp j2)
      rw [encoder_of_sameTags x hx hu.1 e a.1 b this]
      exact j1
    exact c1 order hp ⟨back u (Or.inl rfl) mu, back v (Or.inr rfl) mv⟩
  · obtain ⟨order, hp, hm⟩ : ∃ order : Subs, order.Perm sub ∧ (k, w) ∈ toByteSubscriptions x.encoder order := by
      rcases hw with rfl | rfl
      · exact c2
      · exact c3
    obtain ⟨r, r1, r2⟩ := run order hp
    exact ⟨order, r, hp, r1, (r2 w).mpr ⟨k, hm, hpre⟩⟩

theorem patternText_inj {sc sc' : Scheme} {f f' : List Str} (h : sc.WellFormed f) (h' : sc'.WellFormed f')
    (e : sc.patternText f = sc'.patternText f') : sc = sc' ∧ f = f' := by
  have h1 := (C31_pattern sc f h sc.typeName f).mpr ⟨rfl, rfl⟩
  rw [e] at h1
  obtain ⟨h2, h3⟩ := (C31_pattern sc' f' h' _ _).mp h1
  refine ⟨?_, h3⟩
  revert h2
  cases sc <;> cases sc' <;> decide

-- test: a file with two URIs and a comment, in terms of which everything above is satisfiable
private def sampleFile : List (List Str) :=
  [["HTTP://A".toList, "urn:epc:pat:sgtin-96:3.0614141".toList],
   ["http://b".toList, "urn:epc:pat:sgtin-96:3.0614141.812345".toList, "a comment".toList]]
private def sampleTag : List Byte :=
  [48#8, 116#8, 37#8, 123#8, 247#8, 25#8, 78#8, 64#8, 0#8, 0#8, 26#8, 133#8]
/-- same company prefix, other item reference -/
private def sampleTag' : List Byte :=
  [48#8, 116#8, 37#8, 123#8, 247#8, 25#8, 78#8, 128#8, 0#8, 0#8, 26#8, 133#8]

private theorem sample_wf : Scheme.sgtin.WellFormed ["3".toList, "0614141".toList] ∧
    Scheme.sgtin.WellFormed ["3".toList, "0614141".toList, "812345".toList] := by
  unfold Scheme.WellFormed; decide +kernel

private theorem sample_subscribes (u : Str) (sc : Scheme) (f : List Str)
    (h : FileSubscribes sampleFile u sc f) :
    (u = "http://a".toList ∧ sc = .sgtin ∧ f = ["3".toList, "0614141".toList]) ∨
    (u = "http://b".toList ∧ sc = .sgtin ∧ f = ["3".toList, "0614141".toList, "812345".toList]) := by
  obtain ⟨hw, -, r, hr, hu, hp⟩ := h
  have e1 : "urn:epc:pat:sgtin-96:3.0614141".toList = Scheme.sgtin.patternText ["3".toList, "0614141".toList] := by
    decide +kernel
  have e2 : "urn:epc:pat:sgtin-96:3.0614141.812345".toList =
      Scheme.sgtin.patternText ["3".toList, "0614141".toList, "812345".toList] := by decide +kernel
  unfold sampleFile at hr
  rw [List.mem_cons, List.mem_singleton] at hr
  rcases hr with rfl | rfl
  · left
    have hu' : "http://a".toList = u := by
      have : Option.map toLower ["HTTP://A".toList, "urn:epc:pat:sgtin-96:3.0614141".toList].head? =
        some "http://a".toList := by decide +kernel
      rw [this] at hu; exact Option.some.inj hu
    rw [List.tail_cons, List.mem_singleton, e1] at hp
    obtain ⟨rfl, rfl⟩ := patternText_inj hw sample_wf.1 hp
    exact ⟨hu'.symm, rfl, rfl⟩
  · right
    have hu' : "http://b".toList = u := by
      have : Option.map toLower ["http://b".toList, "urn:epc:pat:sgtin-96:3.0614141.812345".toList,
        "a comment".toList].head? = some "http://b".toList := by decide +kernel
      rw [this] at hu; exact Option.some.inj hu
    rw [List.tail_cons, List.mem_cons, List.mem_singleton, e2] at hp
    rcases hp with hp | hp
    · obtain ⟨rfl, rfl⟩ := patternText_inj hw sample_wf.2 hp
      exact ⟨hu'.symm, rfl, rfl⟩
    · exfalso
      have := patternText_prefix sc f
      rw [hp] at this
      revert this
      decide +kernel

private theorem sample_differ :
    ¬ TagsWithin .sgtin ["3".toList, "0614141".toList] .sgtin ["3".toList, "0614141".toList, "812345".toList] := by
  intro h
  have := h sampleTag' rfl ⟨rfl, by decide +kernel, by decide +kernel, by decide +kernel⟩
  exact absurd this.2.2.2.2 (by decide +kernel)

example : FileOk sampleFile := by
  have hb : ¬ "urn:epc:pat:".toList <+: toLower "a comment".toList := by decide +kernel
  intro r hr
  unfold sampleFile at hr
  rw [List.mem_cons, List.mem_singleton] at hr
  rcases hr with rfl | rfl
  · refine ⟨by simp, fun p hp _ => ?_⟩
    rw [List.tail_cons, List.mem_singleton] at hp
    exact ⟨.sgtin, _, sample_wf.1, by rw [hp]; decide +kernel⟩
  · refine ⟨by simp, fun p hp hpre => ?_⟩
    rw [List.tail_cons, List.mem_cons, List.mem_singleton] at hp
    rcases hp with hp | hp
    · exact ⟨.sgtin, _, sample_wf.2, by rw [hp]; decide +kernel⟩
    · rw [hp] at hpre; exact absurd hpre hb

example : NoRivals sampleFile := by
  intro u v sc f sc' f' hu hv hs
  rcases sample_subscribes u sc f hu with ⟨rfl, rfl, rfl⟩ | ⟨rfl, rfl, rfl⟩ <;>
    rcases sample_subscribes v sc' f' hv with ⟨rfl, rfl, rfl⟩ | ⟨rfl, rfl, rfl⟩
  · rfl
  · exact absurd hs.1 sample_differ
  · exact absurd hs.2 sample_differ
  · rfl

example : sampleTag.length = 12 ∧
    translate [48#8, 0#8] sampleTag = some ("urn:epc:id:sgtin:0614141.812345.6789".toList, false) := by
  decide +kernel

example : (loadRecords sampleFile).bind (fun sub =>
      (newList sampleBinutil.encoder sub).search translate [48#8, 0#8] sampleTag) =
    some ⟨"urn:epc:id:sgtin:0614141.812345.6789".toList, ["http://a".toList, "http://b".toList], false⟩ ∧
    (loadRecords sampleFile).bind (fun sub =>
      (newList sampleBinutil.encoder sub).search translate [48#8, 0#8] sampleTag') =
    some ⟨"urn:epc:id:sgtin:0614141.812346.6789".toList, ["http://a".toList], false⟩ := by decide +kernel

-- test: the Patricia trie leaves out the pattern that selects every tag that any pattern selects
example : (loadRecords sampleFile).bind (fun sub =>
      (newPatricia sampleBinutil.encoder sub).searchEngine translate [48#8, 0#8] sampleTag) =
    some ⟨"urn:epc:id:sgtin:0614141.812345.6789".toList, ["http://b".toList], false⟩ := by decide +kernel

-- test: the pattern of a is not within the pattern of b, so that the one of b is reported by the trie as well
example : NotWidest sampleFile .sgtin ["3".toList, "0614141".toList, "812345".toList] := by
  refine ⟨"http://a".toList, .sgtin, ["3".toList, "0614141".toList], ⟨sample_wf.1, ?_, _, List.mem_cons_self, ?_, ?_⟩,
    sample_differ⟩ <;> decide +kernel

-- test: fields of a tag that C89_made speaks of
example : Scheme.sgtin.WellFormed (Scheme.sgtin.allFields "3".toList "0614141".toList "812345".toList "6789".toList) ∧
    Scheme.sgtin.make sampleBinutil "3".toList "0614141".toList "812345".toList "6789".toList =
      some ⟨sampleTag, [], []⟩ := by
  refine ⟨?_, by decide +kernel⟩
  rw [show Scheme.sgtin.allFields "3".toList "0614141".toList "812345".toList "6789".toList =
    ["3".toList, "0614141".toList, "812345".toList, "6789".toList] from by decide +kernel]
  unfold Scheme.WellFormed; decide +kernel

-- test: two rivals with different spellings of the filter value; the later one in the map gets the report
private def rivalFile : List (List Str) :=
  [["http://a".toList, "urn:epc:pat:sgtin-96:3.0614141".toList],
   ["http://b".toList, "urn:epc:pat:sgtin-96:03.0614141".toList]]

example : (loadRecords rivalFile).bind (fun sub =>
      (newList sampleBinutil.encoder sub).search translate [48#8, 0#8] sampleTag) =
    some ⟨"urn:epc:id:sgtin:0614141.812345.6789".toList, ["http://b".toList], false⟩ ∧
    (loadRecords rivalFile).bind (fun sub =>
      (newList sampleBinutil.encoder sub.reverse).search translate [48#8, 0#8] sampleTag) =
    some ⟨"urn:epc:id:sgtin:0614141.812345.6789".toList, ["http://a".toList], false⟩ := by decide +kernel

end Gosstrak
