import Verif.Proofs.Mixed

/-!
C97: files with patterns of all standards, tags of all lengths.
-/
namespace Gosstrak

/-- reports from part of the bits, in terms of the file -/
theorem reports_answer_in (x : Binutil) (hx : x.Ok) {records : List (List Str)} (hf : FileFine records)
    {order : Subs} (P : Str → List Str → Prop)
    (h : ∀ uri k, Subscribes x.encoder order uri k ↔ ∃ t f, FileGives records uri t f ∧ keyOf x t f = k)
    (bsub : FlatSubs) (hb : ∀ e ∈ bsub, e ∈ toByteSubscriptions x.encoder order)
    (hP : ∀ v u t f, FileGives records u t f → P t f →
      (keyOf x t f, v) ∈ toByteSubscriptions x.encoder order → (keyOf x t f, v) ∈ bsub)
    (id : List Byte) (hid : id ≠ []) (uris : List Str) (hr : ReportsInKeyOrder bsub id uris)
    (pc : List Byte) (ident : Str) (htr : translate pc id = some (ident, false)) :
    ∃ r, finishSearch translate pc id uris = some r ∧ AnswersIn P records id ident r := by
  obtain ⟨hits, -, h2, rfl⟩ := hr
  have sound : ∀ u ∈ hits.map Prod.snd, DueIn records id u := by
    intro u hu
    obtain ⟨⟨k, u'⟩, hk, rfl⟩ := List.mem_map.mp hu
    obtain ⟨hmem, hpre⟩ := (h2 k u').mp hk
    obtain ⟨t, f, hs, rfl⟩ := (h u' k).mp (mem_toByteSubscriptions (hb _ hmem))
    exact ⟨t, f, hs, ((known_key x hx (gives_known hf hs)).2 id hid).mp hpre⟩
  have complete : ∀ u t f, FileGives records u t f → P t f → PatSelects t f id →
      ∃ v ∈ hits.map Prod.snd, ∃ t' f', FileGives records v t' f' ∧ PatSame t f t' f' := by
    intro u t f hs hp hh
    obtain ⟨v, hv⟩ := mem_bytes_of_subscribes ((h u _).mpr ⟨t, f, hs, rfl⟩)
    have hpre := ((known_key x hx (gives_known hf hs)).2 id hid).mpr hh
    obtain ⟨t', f', hs', e'⟩ := (h v _).mp (mem_toByteSubscriptions hv)
    exact ⟨v, List.mem_map.mpr ⟨_, (h2 _ v).mpr ⟨hP v u t f hs hp hv, hpre⟩, rfl⟩, t', f', hs',
      (key_of_same x hx (gives_known hf hs) (gives_known hf hs')).mpr e'.symm⟩
  unfold finishSearch
  by_cases h0 : (hits.map Prod.snd).length = 0
  · rw [if_pos h0]
    have h0' := List.length_eq_zero_iff.mp h0
    exact ⟨_, rfl, sound, complete, fun hne => absurd h0' hne, fun _ => rfl⟩
  · rw [if_neg h0, htr]
    exact ⟨_, rfl, sound, complete, fun _ => ⟨rfl, rfl⟩, fun he => absurd (List.length_eq_zero_iff.mpr he) h0⟩

/-- the facts about a loaded file that everything below starts from -/
theorem loaded_fine (x : Binutil) (hx : x.Ok) (records : List (List Str)) (hf : FileFine records) :
    ∃ sub, loadRecords records = some sub ∧ IsMap sub ∧ ∀ order : Subs, order.Perm sub →
      UrisNonEmpty order ∧
      (∀ uri k, Subscribes x.encoder order uri k ↔
        ∃ t f, FileGives records uri t f ∧ keyOf x t f = k) ∧
      (∀ k u, (k, u) ∈ toByteSubscriptions x.encoder order → IsBitStr k) ∧
      ∀ id : List Byte, id ≠ [] →
        (TagTooShort (toByteSubscriptions x.encoder order) id ↔ CutIn records id) := by
  obtain ⟨sub, l1, l2, l3⟩ := C65_loaded records fun r hr => (hf r hr).1
  refine ⟨sub, l1, l2, fun order hp => ?_⟩
  have hs := gives_subscribes x l2 l3 hp
  refine ⟨?_, hs, ?_, fun id hid => ⟨?_, ?_⟩⟩
  · rintro ⟨u, pats⟩ he e0
    have := mapGet_of_mem l2 (hp.mem_iff.mp he)
    rw [l3] at this
    split at this
    · rename_i hh
      rw [show u = [] from e0] at hh
      exact absurd hh.1 (by decide)
    · cases this
  · intro k u hm
    obtain ⟨t, f, hg, rfl⟩ := (hs u k).mp (mem_toByteSubscriptions hm)
    exact (known_key x hx (gives_known hf hg)).1
  · rintro ⟨k, u, hm, he⟩
    obtain ⟨t, f, hg, rfl⟩ := (hs u k).mp (mem_toByteSubscriptions hm)
    exact ⟨u, t, f, hg, (known_cut x hx (gives_known hf hg) id hid).mp he⟩
  · rintro ⟨u, t, f, hg, hc⟩
    obtain ⟨v, hv⟩ := mem_bytes_of_subscribes ((hs u _).mpr ⟨t, f, hg, rfl⟩)
    exact ⟨_, v, hv, (known_cut x hx (gives_known hf hg) id hid).mpr hc⟩

/-! ## C97 -/

/-- After a file of patterns of any standards is loaded, whatever the order in which the map is then gone
    through, a search for a tag with an identity that ends inside no pattern of the file answers what the
    file says: the list engine and the fresh splay tree for all patterns, the Patricia trie for all but
    those that select every tag that any pattern of the file selects. -/
theorem C97_engines (x : Binutil) (hx : x.Ok) (records : List (List Str)) (hf : FileFine records) :
    ∃ sub, loadRecords records = some sub ∧ ∀ order : Subs, order.Perm sub →
      ∀ (pc id : List Byte) (ident : Str), id ≠ [] → ¬ CutIn records id →
        translate pc id = some (ident, false) →
        (∃ r, (newList x.encoder order).search translate pc id = some r ∧
          AnswersIn (fun _ _ => True) records id ident r) ∧
        (∃ r, (newPatricia x.encoder order).searchEngine translate pc id = some r ∧
          AnswersIn (NotAll records) records id ident r) ∧
        ((∃ u t f, FileGives records u t f) →
          ∃ t r t', newSplay x.encoder order = some t ∧
            t.searchEngine translate pc id = some (r, t') ∧
            AnswersIn (fun _ _ => True) records id ident r) := by
  obtain ⟨sub, l1, -, l2⟩ := loaded_fine x hx records hf
  refine ⟨sub, l1, fun order hp pc id ident hid hcut htr => ?_⟩
  obtain ⟨hu, hs, hb, hshort⟩ := l2 order hp
  have hns : ¬ TagTooShort (toByteSubscriptions x.encoder order) id := fun h => hcut ((hshort id hid).mp h)
  refine ⟨?_, ?_, ?_⟩
  · obtain ⟨uris, h1, h2⟩ := (C96_list x.encoder order hb translate pc id).2 hns
    obtain ⟨r, h4, h5⟩ := reports_answer_in x hx hf (fun _ _ => True) hs _ (fun _ h => h)
      (fun _ _ _ _ _ _ h => h) id hid uris h1 pc ident htr
    exact ⟨r, by rw [h2, h4], h5⟩
  · obtain ⟨uris, h1, h2⟩ := (C96_patricia x.encoder order hu hb translate pc id).2 hid
      fun h => hns (C96_branch_too_short _ _ h)
    obtain ⟨r, h4, h5⟩ := reports_answer_in x hx hf (NotAll records) hs _
      (fun e he => (List.mem_filter.mp he).1)
      (fun v u t f hg hw hm => by
        rw [List.mem_filter, decide_eq_true_iff]
        refine ⟨hm, fun e => ?_⟩
        obtain ⟨w, t', f', g1, g2⟩ := hw
        obtain ⟨v', hv'⟩ := mem_bytes_of_subscribes ((hs w _).mpr ⟨t', f', g1, rfl⟩)
        have hmem := (mem_mapKeys _ (keyOf x t' f')).mpr (List.mem_map.mpr ⟨_, hv', rfl⟩)
        have hpre := (lcp_spec _ (List.ne_nil_of_mem hmem)).1 _ hmem
        dsimp only at e
        rw [← e] at hpre
        exact g2 ((key_of_within x hx (gives_known hf g1) (gives_known hf hg)).mpr hpre))
      id hid uris h1 pc ident htr
    exact ⟨r, by rw [h2, h4], h5⟩
  · rintro ⟨u, t, f, hg⟩
    obtain ⟨v, hv⟩ := mem_bytes_of_subscribes ((hs u _).mpr ⟨t, f, hg, rfl⟩)
    obtain ⟨s, h0, -, h1⟩ := C96_splay x.encoder order (List.ne_nil_of_mem hv) hb translate pc id
    obtain ⟨uris, s', h2, h3⟩ := h1 hns
    obtain ⟨r, h4, h5⟩ := reports_answer_in x hx hf (fun _ _ => True) hs _ (fun _ h => h)
      (fun _ _ _ _ _ _ h => h) id hid uris h2 pc ident htr
    exact ⟨s, r, s', h0, by rw [h3, h4]; rfl, h5⟩

/-- A search for a tag that ends inside a pattern of the file ends the process, in the list engine and in
    the fresh splay tree, whatever the order. -/
theorem C97_cut (x : Binutil) (hx : x.Ok) (records : List (List Str)) (hf : FileFine records) :
    ∃ sub, loadRecords records = some sub ∧ ∀ order : Subs, order.Perm sub →
      ∀ (pc id : List Byte), id ≠ [] → CutIn records id →
        (newList x.encoder order).search translate pc id = none ∧
        ∃ t, newSplay x.encoder order = some t ∧ t.searchEngine translate pc id = none := by
  obtain ⟨sub, l1, -, l2⟩ := loaded_fine x hx records hf
  refine ⟨sub, l1, fun order hp pc id hid hcut => ?_⟩
  obtain ⟨hu, hs, hb, hshort⟩ := l2 order hp
  have hsh := (hshort id hid).mpr hcut
  obtain ⟨k, u, hm, -⟩ := (show TagTooShort _ id from hsh)
  obtain ⟨s, h0, h1, -⟩ := C96_splay x.encoder order (List.ne_nil_of_mem hm) hb translate pc id
  exact ⟨(C96_list x.encoder order hb translate pc id).1 hsh, s, h0, h1 hsh⟩

/-- the distinct bits with which a URI is reported correspond to its patterns -/
theorem due_list_keys (x : Binutil) (hx : x.Ok) {records : List (List Str)} (hf : FileFine records)
    {id : List Byte} {u : Str} (ks : List Str) (hn : ks.Nodup)
    (hks : ∀ k, k ∈ ks ↔ ∃ t f, FileGives records u t f ∧ keyOf x t f = k ∧ PatSelects t f id) :
    (∃ l, DueList records id u l) ∧ ∀ l, DueList records id u l → ks.length = l.length := by
  constructor
  · have key : ∀ js : List Str, js.Nodup → (∀ k ∈ js, k ∈ ks) → ∃ l : List (Str × List Str),
        (∀ p ∈ l, FileGives records u p.1 p.2 ∧ PatSelects p.1 p.2 id ∧ keyOf x p.1 p.2 ∈ js) ∧
        (∀ k ∈ js, ∃ p ∈ l, keyOf x p.1 p.2 = k) ∧
        l.Pairwise fun p q => ¬ PatSame p.1 p.2 q.1 q.2 := by
      intro js
      induction js with
      | nil => intro _ _; exact ⟨[], by simp, by simp, List.Pairwise.nil⟩
      | cons k js ih =>
        intro hnd hin
        rw [List.nodup_cons] at hnd
        obtain ⟨l, h1, h2, h3⟩ := ih hnd.2 fun k hk => hin k (List.mem_cons_of_mem _ hk)
        obtain ⟨t, f, g1, rfl, g3⟩ := (hks k).mp (hin k List.mem_cons_self)
        refine ⟨(t, f) :: l, ?_, ?_, ?_⟩
        · intro p hp
          rcases List.mem_cons.mp hp with rfl | hp
          · exact ⟨g1, g3, List.mem_cons_self⟩
          · obtain ⟨a, b, c⟩ := h1 p hp
            exact ⟨a, b, List.mem_cons_of_mem _ c⟩
        · intro k' hk'
          rcases List.mem_cons.mp hk' with rfl | hk'
          · exact ⟨_, List.mem_cons_self, rfl⟩
          · obtain ⟨p, hp, e⟩ := h2 k' hk'
            exact ⟨p, List.mem_cons_of_mem _ hp, e⟩
        · refine List.Pairwise.cons ?_ h3
          intro q hq hsame
          obtain ⟨a, -, c⟩ := h1 q hq
          rw [← (key_of_same x hx (gives_known hf g1) (gives_known hf a)).mp hsame] at c
          exact hnd.1 c
    obtain ⟨l, h1, h2, h3⟩ := key ks hn fun _ h => h
    refine ⟨l, fun p hp => ⟨(h1 p hp).1, (h1 p hp).2.1⟩, fun t f hg hh => ?_, h3⟩
    obtain ⟨p, hp, e'⟩ := h2 _ ((hks _).mpr ⟨t, f, hg, rfl, hh⟩)
    exact ⟨p, hp, (key_of_same x hx (gives_known hf hg) (gives_known hf (h1 p hp).1)).mpr e'.symm⟩
  · intro l hd
    have hp : (l.map fun p => keyOf x p.1 p.2).Perm ks := by
      refine (List.perm_ext_iff_of_nodup ?_ hn).mpr ?_
      · rw [List.Nodup, List.pairwise_map]
        refine hd.distinct.imp_of_mem ?_
        intro p q hp hq hne e
        exact hne ((key_of_same x hx (gives_known hf (hd.due p hp).1) (gives_known hf (hd.due q hq).1)).mpr e)
      · intro k
        rw [hks, List.mem_map]
        constructor
        · rintro ⟨p, hp, rfl⟩
          exact ⟨p.1, p.2, (hd.due p hp).1, rfl, (hd.due p hp).2⟩
        · rintro ⟨t, f, hg, rfl, hh⟩
          obtain ⟨p, hp, hst⟩ := hd.all t f hg hh
          exact ⟨p, hp, ((key_of_same x hx (gives_known hf hg) (gives_known hf (hd.due p hp).1)).mp hst).symm⟩
    rw [← hp.length_eq, List.length_map]

/-- If no two URIs have patterns that select the same tags, the list engine reports the tag to exactly
    the URIs it is due to, as often as the URI has different patterns that select it. -/
theorem C97_exact (x : Binutil) (hx : x.Ok) (records : List (List Str)) (hf : FileFine records)
    (hr : NoDoubles records) :
    ∃ sub, loadRecords records = some sub ∧ ∀ order : Subs, order.Perm sub →
      ∀ (pc id : List Byte) (ident : Str), id ≠ [] → ¬ CutIn records id →
        translate pc id = some (ident, false) →
        ∃ r, (newList x.encoder order).search translate pc id = some r ∧
          (∀ u, u ∈ r.reportURIs ↔ DueIn records id u) ∧
          (∀ u, (∃ l, DueList records id u l) ∧
            ∀ l, DueList records id u l → r.reportURIs.count u = l.length) ∧
          (r.reportURIs ≠ [] → r.err = false ∧ r.pureIdentity = ident) ∧
          (r.reportURIs = [] → r.err = true) := by
  obtain ⟨sub, l1, -, l2⟩ := loaded_fine x hx records hf
  refine ⟨sub, l1, fun order hp pc id ident hid hcut htr => ?_⟩
  obtain ⟨-, hs, hb, hshort⟩ := l2 order hp
  have hns : ¬ TagTooShort (toByteSubscriptions x.encoder order) id := fun h => hcut ((hshort id hid).mp h)
  obtain ⟨uris, ⟨hits, k1, k2, rfl⟩, h2⟩ := (C96_list x.encoder order hb translate pc id).2 hns
  have hex := (C11_exact x.encoder order order (List.Perm.refl _) fun k u v hu hv => by
    obtain ⟨t, f, a, rfl⟩ := (hs u k).mp hu
    obtain ⟨t', f', a', b'⟩ := (hs v _).mp hv
    exact hr u v t f t' f' a a' ((key_of_same x hx (gives_known hf a) (gives_known hf a')).mpr b'.symm)).2
  have hhit : ∀ k u, (k, u) ∈ hits ↔ ∃ t f, FileGives records u t f ∧ keyOf x t f = k ∧
      PatSelects t f id := by
    intro k u
    rw [k2, hex, hs]
    constructor
    · rintro ⟨⟨t, f, a, rfl⟩, c⟩
      exact ⟨t, f, a, rfl, ((known_key x hx (gives_known hf a)).2 id hid).mp c⟩
    · rintro ⟨t, f, a, rfl, c⟩
      exact ⟨⟨t, f, a, rfl⟩, ((known_key x hx (gives_known hf a)).2 id hid).mpr c⟩
  have hdue : ∀ u, u ∈ hits.map Prod.snd ↔ DueIn records id u := by
    intro u
    rw [List.mem_map]
    constructor
    · rintro ⟨⟨k, u'⟩, hk, rfl⟩
      obtain ⟨t, f, a, -, c⟩ := (hhit k u').mp hk
      exact ⟨t, f, a, c⟩
    · rintro ⟨t, f, a, c⟩
      exact ⟨(keyOf x t f, u), (hhit _ u).mpr ⟨t, f, a, rfl, c⟩, rfl⟩
  have hcount : ∀ u, (∃ l, DueList records id u l) ∧
      ∀ l, DueList records id u l → (hits.map Prod.snd).count u = l.length := by
    intro u
    have hkn : ((hits.filter fun p => decide (p.2 = u)).map Prod.fst).Nodup :=
      (k1.imp fun h => by rintro rfl; exact List.lt_irrefl _ h : List.Nodup _).sublist
        (List.filter_sublist.map _)
    obtain ⟨d1, d2⟩ := due_list_keys x hx hf (id := id) (u := u) _ hkn fun k => by
      rw [← hhit, List.mem_map]
      constructor
      · rintro ⟨⟨k', u'⟩, h, rfl⟩
        rw [List.mem_filter, decide_eq_true_iff] at h
        obtain ⟨a, rfl⟩ := h
        exact a
      · intro h
        exact ⟨(k, u), List.mem_filter.mpr ⟨h, by simp⟩, rfl⟩
    refine ⟨d1, fun l hd => ?_⟩
    rw [← d2 l hd, List.length_map, List.count_eq_countP, List.countP_map, List.countP_eq_length_filter]
    congr 2
    funext p
    simp [Bool.beq_eq_decide_eq]
  unfold finishSearch at h2
  by_cases h0 : hits.map Prod.snd = []
  · rw [if_pos (by rw [h0]; rfl)] at h2
    exact ⟨_, h2, hdue, hcount, fun h => absurd h0 h, fun _ => rfl⟩
  · rw [if_neg (fun h => h0 (List.length_eq_zero_iff.mp h)), htr] at h2
    exact ⟨⟨ident, hits.map Prod.snd, false⟩, h2, hdue, hcount, fun _ => ⟨rfl, rfl⟩, fun h => absurd h h0⟩

/-- the first character of a tag read as an ISO tag -/
theorem first_symbol (id : List Byte) (b : Byte) (h : id.head? = some b) :
    (sixBitSymbols id)[0]? = some (sixBitChar (b.toNat / 4)) := by
  match id, h with
  | b' :: l, h =>
    simp only [List.head?_cons, Option.some.injEq] at h
    subst h
    unfold sixBitSymbols
    rw [List.getElem?_map, List.getElem?_range (by simp only [List.length_cons]; omega)]
    have := field_byte (b' :: l) 0 0 6 (by omega)
    simp only [Nat.mul_zero, Nat.add_zero] at this
    rw [Option.map_some, Nat.mul_zero, this]
    have hb : byteAt (b' :: l) 0 = b' := rfl
    have hlt := b'.isLt
    rw [hb]
    congr 2
    omega

theorem epc_first_symbol (sc : Scheme) (id : List Byte) (h : id.head? = some sc.header) :
    (sixBitSymbols id)[0]? = some (some sc.letter) := by
  rw [first_symbol id _ h]
  cases sc <;> decide

theorem typeName_not_iso (sc : Scheme) : "iso17363".toList ≠ sc.typeName ∧ "iso17365".toList ≠ sc.typeName := by
  cases sc <;> decide

theorem isoText_kind {t : Str} {f : List Str} {s : Str} (h : IsoText t f s) :
    (∀ sc : Scheme, t ≠ sc.typeName) ∧ ¬ Useless t f := by
  have ne : "iso17363".toList ≠ "iso17365".toList := by decide
  have hk : t = "iso17363".toList ∨ t = "iso17365".toList := by cases h <;> simp
  refine ⟨fun sc => ?_, fun hu => ?_⟩
  · rcases hk with rfl | rfl
    · exact (typeName_not_iso sc).1
    · exact (typeName_not_iso sc).2
  · have := useless_key sampleBinutil hu
    rw [(isoText_key sampleBinutil h).1] at this
    cases this

/-- a pattern stands for one text -/
theorem isoText_unique {t : Str} {f : List Str} {s s' : Str} (h : IsoText t f s) (h' : IsoText t f s') :
    s = s' := by
  cases h with
  | container _ h1 h2 h3 =>
    cases h' with
    | container => rfl
    | complete => simp at h2
  | complete d o e c =>
    cases h' with
    | container _ h1 h2 h3 => simp at h2
    | complete => rfl
  | item _ h1 h2 h3 =>
    generalize ht : "iso17365".toList = t at h'
    cases h' with
    | container => exact absurd ht (by decide)
    | complete => exact absurd ht (by decide)
    | item => rfl

/-- An ISO pattern selects the tags whose text starts with its text. -/
theorem iso_selects {t : Str} {f : List Str} {s : Str} (h : IsoText t f s) (id : List Byte) :
    PatSelects t f id ↔ s.map some <+: sixBitSymbols id := by
  obtain ⟨h1, h2⟩ := isoText_kind h
  constructor
  · rintro (⟨sc, rfl, -⟩ | ⟨s', h', hp⟩ | hu)
    · exact absurd rfl (h1 sc)
    · rw [isoText_unique h h']; exact hp
    · exact absurd hu h2
  · exact fun hp => Or.inr (Or.inl ⟨s, h, hp⟩)

theorem sixBits_prefix_iff (x : Binutil) (hx : x.Ok) (s s' : Str) (h : IsSixBit s) (h' : IsSixBit s') :
    x.sixBits s <+: x.sixBits s' ↔ s <+: s' := by
  induction s generalizing s' with
  | nil => exact ⟨fun _ => List.nil_prefix, fun _ => List.nil_prefix⟩
  | cons c s ih =>
    have hc := h c List.mem_cons_self
    have b := hx.sixBit c (by omega) hc.2
    cases s' with
    | nil =>
      have : (x.sixBits (c :: s)).length = 6 * (s.length + 1) := (sixBits_bits x hx _ h.orSpace).2
      constructor
      · intro hp
        have := hp.length_le
        rw [show x.sixBits [] = [] from rfl, List.length_nil] at this
        omega
      · intro hp
        simp at hp
    | cons c' s' =>
      have hc' := h' c' List.mem_cons_self
      have b' := hx.sixBit c' (by omega) hc'.2
      have ih := ih s' (fun d hd => h d (List.mem_cons_of_mem _ hd)) fun d hd => h' d (List.mem_cons_of_mem _ hd)
      rw [sixBits_cons, sixBits_cons, List.cons_prefix_cons, ← ih]
      constructor
      · intro hp
        have e : x.sixBit c = x.sixBit c' :=
          (List.prefix_of_prefix_length_le ((List.prefix_append _ _).trans hp) (List.prefix_append _ _)
            (by have := b.2.1; have := b'.2.1; omega)).eq_of_length (by rw [b.2.1, b'.2.1])
        rw [e] at hp
        refine ⟨?_, (List.prefix_append_right_inj _).mp hp⟩
        have : c.toNat % 64 = c'.toNat % 64 := by rw [← b.2.2, ← b'.2.2, e]
        rw [← Char.ofNat_toNat c, ← Char.ofNat_toNat c']
        congr 1
        omega
      · rintro ⟨rfl, hp⟩
        exact (List.prefix_append_right_inj _).mpr hp

/-- Of two ISO patterns one selects every tag that the other selects exactly if its text starts the
    other's, wherever the fields begin and end and whichever of the two standards they belong to; so
    patterns with the same text select the same tags. -/
theorem C97_texts {t t' : Str} {f f' : List Str} {s s' : Str} (h : IsoText t f s) (h' : IsoText t' f' s') :
    (PatWithin t f t' f' ↔ s' <+: s) ∧ (PatSame t f t' f' ↔ s = s') := by
  have key : ∀ {t t' : Str} {f f' : List Str} {s s' : Str}, IsoText t f s → IsoText t' f' s' →
      (PatWithin t f t' f' ↔ s' <+: s) := by
    intro t t' f f' s s' h h'
    obtain ⟨k, b⟩ := isoText_key sampleBinutil h
    obtain ⟨k', b'⟩ := isoText_key sampleBinutil h'
    rw [key_of_within sampleBinutil sampleBinutil_ok (Or.inr (Or.inl ⟨s, h⟩)) (Or.inr (Or.inl ⟨s', h'⟩))]
    unfold keyOf
    rw [k, k', Option.getD_some, Option.getD_some, sixBits_prefix_iff sampleBinutil sampleBinutil_ok s' s b' b]
  refine ⟨key h h', ?_⟩
  unfold PatSame
  rw [key h h', key h' h]
  constructor
  · rintro ⟨h1, h2⟩; exact h2.eq_of_length_le h1.length_le
  · rintro rfl; exact ⟨List.prefix_rfl, List.prefix_rfl⟩

/-- An ISO pattern selects an EPC tag only if its text is empty or starts with the letter `M` for a GIAI
    tag and `L` for any other; the pattern of that one letter selects all of them. -/
theorem C97_iso_pattern_epc_tag (sc : Scheme) (id : List Byte) (hh : id.head? = some sc.header) :
    (∀ t f s, IsoText t f s → PatSelects t f id → s = [] ∨ s.head? = some sc.letter) ∧
    ∀ t f, IsoText t f [sc.letter] → PatSelects t f id := by
  have h0 := epc_first_symbol sc id hh
  constructor
  · intro t f s hs hsel
    rw [iso_selects hs] at hsel
    cases s with
    | nil => exact Or.inl rfl
    | cons c s =>
      right
      have := List.prefix_iff_getElem?.mp hsel 0 (by simp)
      rw [h0] at this
      simpa using this.symm
  · intro t f hs
    rw [iso_selects hs]
    cases e : sixBitSymbols id with
    | nil => rw [e] at h0; cases h0
    | cons a l =>
      rw [e] at h0
      simp only [List.getElem?_cons_zero, Option.some.injEq] at h0
      rw [h0]
      simp

/-- An EPC pattern neither selects a tag whose text starts with another character than its letter nor
    does such a tag end inside it. -/
theorem C97_epc_pattern_iso_tag (sc : Scheme) (f : List Str) (he : sc.Encodable f) (id : List Byte)
    (hid : id ≠ []) (h : (sixBitSymbols id)[0]? ≠ some (some sc.letter)) :
    ¬ PatSelects sc.typeName f id ∧ ¬ PatCut sc.typeName f id := by
  have key : ∀ more, ¬ PatSelects sc.typeName f (id ++ more) := by
    rintro more (⟨sc', e, -, hs⟩ | ⟨s, hs, -⟩ | hu)
    · have : sc' = sc := by
        revert e; cases sc <;> cases sc' <;> decide
      subst this
      have h1 := has_head _ _ _ (hs [])
      rw [List.append_nil] at h1
      match id, hid with
      | b :: l, _ => exact h (epc_first_symbol _ _ (by simpa using h1))
    · exact absurd rfl ((isoText_kind hs).1 sc)
    · have := useless_key sampleBinutil hu
      obtain ⟨k, e1, -⟩ := encoder_carries sampleBinutil sampleBinutil_ok sc f he
      rw [e1] at this; cases this
  refine ⟨by simpa using key [], ?_⟩
  rintro ⟨-, more, hm⟩
  exact key more hm

/-- what is read from a tag packed of a text -/
theorem symbols_packed (x : Binutil) (hx : x.Ok) (s : Str) (h : IsSixBit s) (k : Nat)
    (id : List Byte) (hl : 8 * id.length = 6 * s.length + k)
    (hc : Carries (x.sixBits s ++ padBits k) 0 id) :
    sixBitSymbols id = s.map some ++ List.replicate (k / 6) none := by
  rw [carries_append, (sixBits_bits x hx s h.orSpace).2] at hc
  have hdiv : 8 * id.length / 6 = s.length + k / 6 := by omega
  unfold sixBitSymbols
  rw [hdiv, List.range_add, List.map_append]
  congr 1
  · apply List.ext_getElem?
    intro i
    rw [List.getElem?_map, List.getElem?_map]
    by_cases hi : i < s.length
    · rw [List.getElem?_range hi, List.getElem?_eq_getElem hi, Option.map_some, Option.map_some]
      congr 1
      have := sixBits_fields x hx s h.orSpace 0 id hc.1 i _ (List.getElem?_eq_getElem hi)
      rw [Nat.zero_add] at this
      rw [sixBitChar_eq _ (field_lt id _ 6) _ (h _ (List.getElem_mem hi)), this]
    · rw [List.getElem?_eq_none (by simpa using hi), List.getElem?_eq_none (by omega)]
      rfl
  · apply List.ext_getElem?
    intro j
    rw [List.getElem?_map, List.getElem?_map]
    by_cases hj : j < k / 6
    · rw [List.getElem?_range hj, Option.map_some, Option.map_some, List.getElem?_replicate, if_pos hj]
      have := padBits_field k _ id hc.2 j (by omega)
      have e : 6 * (s.length + j) = 0 + 6 * s.length + 6 * j := by omega
      rw [e, this]; rfl
    · rw [List.getElem?_eq_none (by simpa using hj), List.getElem?_replicate, if_neg hj]; rfl

/-- The patterns that select a tag packed of a text that does not start with `L` or `M`: the ISO patterns
    whose text starts the tag's, and those of which no filter can be made. It ends inside none unless the
    text of an ISO pattern goes on behind the tag's. -/
theorem packed_selected (x : Binutil) (hx : x.Ok) (text : Str) (h : IsSixBit text) (hne : text ≠ [])
    (hL : text.head? ≠ some 'L') (hM : text.head? ≠ some 'M') (id : List Byte) (n : Nat)
    (hpk : Binutil.packISO (x.sixBits text) = some (⟨id, [], []⟩, n)) :
    id ≠ [] ∧ (∀ t f, PatSelects t f id ↔ (∃ s, IsoText t f s ∧ s <+: text) ∨ Useless t f) ∧
      ∀ t f, PatCut t f id → ∃ s, IsoText t f s ∧ text <+: s ∧ s ≠ text := by
  obtain ⟨id', n', k, q1, q2, q3, q4, q5, q6, q7⟩ := packISO_spec x hx text h.orSpace hne
  rw [hpk] at q1
  cases q1
  have hpos := List.length_pos_iff.mpr hne
  have hid : id ≠ [] := by
    rintro rfl
    simp at q6
    omega
  have hsym := symbols_packed x hx text h k id q6 q7
  have hfirst : ∀ sc : Scheme, (sixBitSymbols id)[0]? ≠ some (some sc.letter) := by
    intro sc
    rw [hsym]
    match text, hne, hL, hM with
    | c :: s, _, hL, hM =>
      simp only [List.map_cons, List.cons_append, List.getElem?_cons_zero, ne_eq, Option.some.injEq]
      simp only [List.head?_cons, ne_eq, Option.some.injEq] at hL hM
      cases sc <;> assumption
  have hsome : ∀ s : Str, s.map some <+: sixBitSymbols id ↔ s <+: text := by
    intro s
    rw [hsym]
    constructor
    · intro hp
      have hle : s.length ≤ text.length := by
        apply Classical.byContradiction
        intro hlt
        have hlt : text.length < s.length := by omega
        have h1 := List.prefix_iff_getElem?.mp hp text.length (by rw [List.length_map]; exact hlt)
        rw [List.getElem?_append_right (by simp), List.length_map, Nat.sub_self, List.getElem_map,
          List.getElem?_replicate] at h1
        split at h1
        · cases h1
        · cases h1
      have h2 := List.prefix_of_prefix_length_le hp (List.prefix_append _ _) (by simpa using hle)
      exact map_some_pre h2
    · rintro ⟨r, rfl⟩
      rw [List.map_append, List.append_assoc]
      exact List.prefix_append _ _
  refine ⟨hid, fun t f => ⟨?_, ?_⟩, ?_⟩
  · rintro (⟨sc, rfl, he, hs⟩ | ⟨s, hs, hp⟩ | hu)
    · exact absurd (Or.inl ⟨sc, rfl, he, hs⟩) (C97_epc_pattern_iso_tag sc f he id hid (hfirst sc)).1
    · exact Or.inl ⟨s, hs, (hsome s).mp hp⟩
    · exact Or.inr hu
  · rintro (⟨s, hs, hp⟩ | hu)
    · exact Or.inr (Or.inl ⟨s, hs, (hsome s).mpr hp⟩)
    · exact Or.inr (Or.inr hu)
  · rintro t f ⟨hn, more, ⟨sc, rfl, he, hs⟩ | ⟨s, hs, hp⟩ | hu⟩
    · exact absurd ⟨hn, more, Or.inl ⟨sc, rfl, he, hs⟩⟩
        (C97_epc_pattern_iso_tag sc f he id hid (hfirst sc)).2
    · refine ⟨s, hs, ?_⟩
      have hns : ¬ s <+: text := fun h => hn ((iso_selects hs id).mpr ((hsome s).mpr h))
      have ht : text.map some <+: sixBitSymbols (id ++ more) :=
        ((hsome text).mpr List.prefix_rfl).trans (symbols_append id more)
      rcases List.prefix_or_prefix_of_prefix ht hp with h | h
      · exact ⟨map_some_pre h, fun e => hns (e ▸ List.prefix_rfl)⟩
      · exact absurd (map_some_pre h) hns
    · exact absurd (Or.inr (Or.inr hu)) hn

/-- A container tag made of owner code, category and serial number is due to exactly the URIs with an ISO
    pattern whose text starts the text of the tag, or with a pattern of which no filter can be made. It
    ends inside no pattern unless the text of an ISO pattern goes on behind the text of the tag. -/
theorem C97_container (x : Binutil) (hx : x.Ok) (records : List (List Str)) (oc ei csn : Str)
    (ho : IsCode oc) (ho3 : oc.length = 3) (he : IsCode ei) (he1 : ei.length = 1) (hs : IsDigits csn)
    (hs0 : csn ≠ []) (hs6 : csn.length ≤ 6) (text : Str)
    (htext : text = "7B".toList ++ oc ++ ei ++ sixDigits csn ++
      [Char.ofNat (48 + checkDigit (oc ++ ei ++ sixDigits csn))]) :
    ∃ id pc, x.makeISO17363 false oc ei csn = some (⟨id, [], []⟩, 80) ∧ id ≠ [] ∧
      makeISOPC 80 "A9".toList = some pc ∧
      translate pc id = some ("urn:epc:id:iso17363:".toList ++ text, false) ∧
      (∀ u, DueIn records id u ↔ ∃ t f, FileGives records u t f ∧
        ((∃ s, IsoText t f s ∧ s <+: text) ∨ Useless t f)) ∧
      ((∀ u t f s, FileGives records u t f → IsoText t f s → text <+: s → s = text) →
        ¬ CutIn records id) := by
  obtain ⟨id, pc, m1, -, m3, m4⟩ := C67_iso17363 x hx oc ei csn ho ho3 he he1 hs hs0 hs6
  obtain ⟨t1, t2, t3⟩ := make17363 x false oc ei csn ho ho3 he he1 hs hs0 hs6
  rw [← htext] at m4 t1 t2 t3
  rw [if_neg (by decide), m1] at t3
  have hhead : text.head? = some '7' := by rw [htext]; rfl
  obtain ⟨p1, p2, p3⟩ := packed_selected x hx text t1 (by rintro rfl; cases hhead) (by rw [hhead]; decide)
    (by rw [hhead]; decide) id 80 t3.symm
  refine ⟨id, pc, m1, p1, m3, m4, fun u => ?_, fun hno => ?_⟩
  · unfold DueIn
    constructor
    · rintro ⟨t, f, hg, hsel⟩; exact ⟨t, f, hg, (p2 t f).mp hsel⟩
    · rintro ⟨t, f, hg, hsel⟩; exact ⟨t, f, hg, (p2 t f).mpr hsel⟩
  · rintro ⟨u, t, f, hg, hc⟩
    obtain ⟨s, h1, h2, h3⟩ := p3 t f hc
    exact h3 (hno u t f s hg h1 h2)

/-- The same for an item tag whose data identifier does not start with `L` or `M`. -/
theorem C97_item (x : Binutil) (hx : x.Ok) (records : List (List Str)) (di iac cin sn : Str)
    (hd : IsSixBit di) (hd0 : di ≠ []) (hL : di.head? ≠ some 'L') (hM : di.head? ≠ some 'M')
    (hi : IsSixBit iac) (hi0 : iac ≠ []) (hc : IsSixBit cin) (hc0 : cin ≠ []) (hs : IsSixBit sn)
    (hs0 : sn ≠ []) (hlen : di.length + iac.length + cin.length + sn.length ≤ 82) (text : Str)
    (htext : text = di ++ iac ++ cin ++ sn) :
    ∃ id n pc, x.makeISO17365 false di iac cin sn = some (⟨id, [], []⟩, n) ∧ id ≠ [] ∧
      makeISOPC n "A2".toList = some pc ∧
      translate pc id = some ("urn:epc:id:iso17365:".toList ++ text, false) ∧
      (∀ u, DueIn records id u ↔ ∃ t f, FileGives records u t f ∧
        ((∃ s, IsoText t f s ∧ s <+: text) ∨ Useless t f)) ∧
      ((∀ u t f s, FileGives records u t f → IsoText t f s → text <+: s → s = text) →
        ¬ CutIn records id) := by
  obtain ⟨id, n, pc, m1, m2, m3, m4⟩ := C67_iso17365 x hx di iac cin sn hd hi hi0 hc hc0 hs hs0 hlen
  have hm : x.makeISO17365 false di iac cin sn = Binutil.packISO (x.sixBits (di ++ iac ++ cin ++ sn)) := by
    unfold Binutil.makeISO17365
    simp only [hi0, hc0, hs0, false_and, if_false, sixBits_append]
    rfl
  have hsix := ((hd.append hi).append hc).append hs
  have hhead : text.head? = di.head? := by
    rw [htext]
    cases di with
    | nil => exact absurd rfl hd0
    | cons c s => rfl
  rw [← htext] at m4 hm hsix
  rw [m1] at hm
  obtain ⟨p1, p2, p3⟩ := packed_selected x hx text hsix (by rw [htext]; simp [hd0]) (by rw [hhead]; exact hL)
    (by rw [hhead]; exact hM) id n hm.symm
  refine ⟨id, n, pc, m1, p1, m3, m4, fun u => ?_, fun hno => ?_⟩
  · unfold DueIn
    constructor
    · rintro ⟨t, f, hg, hsel⟩; exact ⟨t, f, hg, (p2 t f).mp hsel⟩
    · rintro ⟨t, f, hg, hsel⟩; exact ⟨t, f, hg, (p2 t f).mpr hsel⟩
  · rintro ⟨u, t, f, hg, hcut⟩
    obtain ⟨s, h1, h2, h3⟩ := p3 t f hcut
    exact h3 (hno u t f s hg h1 h2)

/-- An item tag whose data identifier starts with `L` or `M` can be taken for an EPC tag: this one, with data
    identifier `LF`, has the header of an SGTIN-96 tag and the filter value 3. -/
theorem C97_item_tag_taken_for_epc :
    ∃ id n, sampleBinutil.makeISO17365 false "LF".toList "UN".toList "1".toList "2".toList =
        some (⟨id, [], []⟩, n) ∧ PatSelects Scheme.sgtin.typeName ["3".toList] id := by
  refine ⟨[48#8, 101#8, 78#8, 199#8, 40#8, 32#8], 48, by decide +kernel, ?_⟩
  refine ((known_key sampleBinutil sampleBinutil_ok (Or.inl ⟨.sgtin, rfl, ?_⟩)).2 _ (by decide)).mp ?_
  · unfold Scheme.Encodable; decide +kernel
  · decide +kernel

/-- the kind and the fields of a pattern, computed -/
theorem patternOf_computed {p t : Str} {f : List Str} (h : PatternOf p t f) :
    ∃ g, splitOn ':' (trimPrefix p "urn:epc:pat:".toList) = [t, g] ∧ splitOn '.' (toUpper g) = f := by
  obtain ⟨body, g, h1, h2, h3⟩ := h
  rw [stripped_iff] at h1
  rw [← splitOn_iff] at h2 h3
  exact ⟨g, by rw [h1]; exact h2, h3⟩

-- test: a file with patterns of all kinds, in terms of which everything above is satisfiable
private def mixedFile : List (List Str) :=
  [["http://a".toList, "urn:epc:pat:sgtin-96:3.0614141".toList],
   ["http://b".toList, "urn:epc:pat:iso17363:7b.CSQ".toList, "urn:epc:pat:no-colon".toList],
   ["http://c".toList, "urn:epc:pat:iso17365:25S.UN".toList, "urn:epc:pat:usdod-96:1.2".toList],
   ["http://d".toList, "urn:epc:pat:iso17365:7BCSQU3054383-1".toList, "urn:epc:pat:iso17363:7B.CS.U.305438".toList]]

private def sixPatterns : List (Str × Str × List Str) :=
  [("http://a".toList, "sgtin-96".toList, ["3".toList, "0614141".toList]),
   ("http://b".toList, "iso17363".toList, ["7B".toList, "CSQ".toList]),
   ("http://c".toList, "iso17365".toList, ["25S".toList, "UN".toList]),
   ("http://c".toList, "usdod-96".toList, ["1".toList, "2".toList]),
   ("http://d".toList, "iso17365".toList, ["7BCSQU3054383-1".toList]),
   ("http://d".toList, "iso17363".toList, ["7B".toList, "CS".toList, "U".toList, "305438".toList])]

private theorem mixed_patterns {r : List Str} (hr : r ∈ mixedFile) {p : Str} (hp : p ∈ r.tail) {t : Str}
    {f : List Str} (h : PatternOf p t f) : (((r.head?).map toLower).getD [], t, f) ∈ sixPatterns := by
  have key : ∀ r ∈ mixedFile, ∀ p ∈ r.tail,
      (match splitOn ':' (trimPrefix p "urn:epc:pat:".toList) with
      | [t, g] => decide ((((r.head?).map toLower).getD [], t, splitOn '.' (toUpper g)) ∈ sixPatterns)
      | _ => true) = true := by decide +kernel
  obtain ⟨g, h1, rfl⟩ := patternOf_computed h
  have := key r hr p hp
  rw [h1] at this
  exact of_decide_eq_true this

private theorem mixed_known {u t : Str} {f : List Str} (h : (u, t, f) ∈ sixPatterns) : PatKnown t f := by
  have wf : Scheme.sgtin.Encodable ["3".toList, "0614141".toList] := by unfold Scheme.Encodable; decide +kernel
  unfold sixPatterns at h
  simp only [List.mem_cons, List.not_mem_nil, or_false, Prod.mk.injEq] at h
  rcases h with ⟨-, rfl, rfl⟩ | ⟨-, rfl, rfl⟩ | ⟨-, rfl, rfl⟩ | ⟨-, rfl, rfl⟩ | ⟨-, rfl, rfl⟩ | ⟨-, rfl, rfl⟩
  · exact Or.inl ⟨.sgtin, rfl, wf⟩
  · exact Or.inr (Or.inl ⟨_, .container _ (by decide) (by decide) (by decide +kernel)⟩)
  · exact Or.inr (Or.inl ⟨_, .item _ (by decide) (by decide) (by decide +kernel)⟩)
  · exact Or.inr (Or.inr (.unknown _ _ (by intro sc; cases sc <;> decide) (by decide) (by decide)))
  · exact Or.inr (Or.inl ⟨_, .item _ (by decide) (by decide) (by decide +kernel)⟩)
  · exact Or.inr (Or.inl ⟨_, .complete _ _ _ _ (by decide +kernel) (by decide +kernel) (by decide +kernel)
      (by decide +kernel) (by decide) (by decide)⟩)

private theorem mixed_fine : FileFine mixedFile := by
  intro r hr
  refine ⟨?_, fun p hp _ t f h => mixed_known (mixed_patterns hr hp h)⟩
  have : ∀ r ∈ mixedFile, r ≠ [] := by decide
  exact this r hr

private theorem mixed_gives {u t : Str} {f : List Str} (h : FileGives mixedFile u t f) :
    (u, t, f) ∈ sixPatterns := by
  obtain ⟨-, r, hr, hu, p, hp, -, hof⟩ := h
  have := mixed_patterns hr hp hof
  rwa [hu] at this

example : FileFine mixedFile := mixed_fine

example : NoDoubles mixedFile := by
  intro u v t f t' f' h h' hs
  have e := (key_of_same sampleBinutil sampleBinutil_ok (gives_known mixed_fine h)
    (gives_known mixed_fine h')).mp hs
  have key : ∀ a ∈ sixPatterns, ∀ b ∈ sixPatterns,
      keyOf sampleBinutil a.2.1 a.2.2 = keyOf sampleBinutil b.2.1 b.2.2 → a.1 = b.1 := by decide +kernel
  exact key _ (mixed_gives h) _ (mixed_gives h') e

/-- the tag of container CSQ U 305438, 7BCSQU3054383 -/
private def containerTag : List Byte := [220#8, 32#8, 211#8, 69#8, 92#8, 240#8, 215#8, 76#8, 248#8, 206#8]

-- it is due to b, and to c because of the pattern of an unknown kind; it ends inside the pattern of d, which goes
-- on with a character whose code starts like the padding
example : translate [41#8, 169#8] containerTag = some ("urn:epc:id:iso17363:7BCSQU3054383".toList, false) := by
  decide +kernel

example : DueIn mixedFile containerTag "http://b".toList := by
  refine ⟨"iso17363".toList, ["7B".toList, "CSQ".toList], ⟨by decide, _, List.mem_cons_of_mem _ List.mem_cons_self,
    by decide +kernel, "urn:epc:pat:iso17363:7b.CSQ".toList, by decide, by decide +kernel, ?_⟩, ?_⟩
  · refine ⟨"iso17363:7b.CSQ".toList, "7b.CSQ".toList, Or.inl (by decide), ?_, ?_⟩
    · rw [← splitOn_iff]; decide +kernel
    · rw [← splitOn_iff]; decide +kernel
  · rw [iso_selects (s := "7BCSQ".toList) (.container _ (by decide) (by decide) (by decide +kernel))]
    decide +kernel

example : CutIn mixedFile containerTag ∧
    ¬ CutIn mixedFile [48#8, 116#8, 37#8, 123#8, 247#8, 25#8, 78#8, 64#8, 0#8, 0#8, 26#8, 133#8] := by
  constructor
  · refine ⟨"http://d".toList, "iso17365".toList, ["7BCSQU3054383-1".toList], ⟨by decide,
      ["http://d".toList, "urn:epc:pat:iso17365:7BCSQU3054383-1".toList,
        "urn:epc:pat:iso17363:7B.CS.U.305438".toList], by decide +kernel, by decide +kernel,
      "urn:epc:pat:iso17365:7BCSQU3054383-1".toList, by decide +kernel, by decide +kernel, ?_⟩, ?_⟩
    · refine ⟨"iso17365:7BCSQU3054383-1".toList, "7BCSQU3054383-1".toList, Or.inl (by decide), ?_, ?_⟩
      · rw [← splitOn_iff]; decide +kernel
      · rw [← splitOn_iff]; decide +kernel
    · rw [← known_cut sampleBinutil sampleBinutil_ok (Or.inr (Or.inl
        ⟨_, .item _ (by decide) (by decide) (by decide +kernel)⟩)) _ (by decide)]
      decide +kernel
  · rintro ⟨u, t, f, hg, hc⟩
    rw [← known_cut sampleBinutil sampleBinutil_ok (gives_known mixed_fine hg) _ (by decide)] at hc
    have key : ∀ a ∈ sixPatterns, ¬ TagEndsInside
        [48#8, 116#8, 37#8, 123#8, 247#8, 25#8, 78#8, 64#8, 0#8, 0#8, 26#8, 133#8]
        (keyOf sampleBinutil a.2.1 a.2.2) := by decide +kernel
    exact key _ (mixed_gives hg) hc

-- a container pattern and an item pattern with the same text
example : PatSame "iso17363".toList ["7B".toList, "CSQ".toList] "iso17365".toList ["7BC".toList, "SQ".toList] :=
  (C97_texts (s := "7BCSQ".toList) (s' := "7BCSQ".toList)
    (.container _ (by decide) (by decide) (by decide +kernel))
    (.item _ (by decide) (by decide) (by decide +kernel))).2.mpr rfl

-- every SGTIN tag is reported to whoever asks for items with data identifier `L`
example : PatSelects "iso17365".toList ["L".toList]
    [48#8, 116#8, 37#8, 123#8, 247#8, 25#8, 78#8, 64#8, 0#8, 0#8, 26#8, 133#8] :=
  (C97_iso_pattern_epc_tag .sgtin _ rfl).2 _ _ (.item ["L".toList] (by decide) (by decide) (by decide +kernel))

example : (sixBitSymbols containerTag)[0]? ≠ some (some Scheme.sgtin.letter) := by decide +kernel

end Gosstrak
