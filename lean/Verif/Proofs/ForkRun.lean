import Verif.Spec.ForkRun
import Verif.Proofs.MixedRun
import Verif.Props.Shelf

/-! The engines on files with forks. -/
namespace Gosstrak

section
variable {x : Binutil} {records : List (List Str)} {sub order : Subs}

theorem MixedBehind.keys (hb : MixedBehind x records sub) (hp : order.Perm sub) (k : Str) :
    k ∈ mapKeys (toByteSubscriptions x.encoder order) ↔ ∃ u t f, FileGives records u t f ∧ keyOf x t f = k := by
  constructor
  · intro h
    exact ⟨_, hb.mem hp (uriOf_mem h)⟩
  · rintro ⟨u, t, f, hg, rfl⟩
    obtain ⟨v, hv⟩ := hb.stored hp hg
    exact key_of_mem hv

theorem MixedBehind.bitKeys (hb : MixedBehind x records sub) (hp : order.Perm sub) :
    BitKeys (toByteSubscriptions x.encoder order) := fun _ hk => hb.bits hp (uriOf_mem hk)

/-- narrower patterns have longer keys -/
theorem MixedBehind.narrower (hb : MixedBehind x records sub) {u u' t t' : Str} {f f' : List Str}
    (h : FileGives records u t f) (h' : FileGives records u' t' f') :
    PatNarrower (t, f) (t', f') ↔ keyOf x t' f' <+: keyOf x t f ∧ keyOf x t' f' ≠ keyOf x t f := by
  unfold PatNarrower
  rw [key_of_within x hb.ok (hb.known h) (hb.known h'), key_of_within x hb.ok (hb.known h') (hb.known h)]
  exact and_congr_right fun h1 => not_congr
    ⟨fun h2 => h1.eq_of_length_le h2.length_le, fun h2 => by rw [h2]⟩

theorem MixedBehind.long (hb : MixedBehind x records sub) (hp : order.Perm sub) {id : List Byte} :
    LongFor records id ↔ id ≠ [] ∧
      ∀ k ∈ mapKeys (toByteSubscriptions x.encoder order), k.length ≤ 8 * id.length := by
  refine and_congr_right fun _ => ⟨fun h k hk => ?_, fun h u t f bits hg ha => ?_⟩
  · obtain ⟨u, t, f, hg, rfl⟩ := (hb.keys hp k).mp hk
    exact h u t f _ hg ((key_asks x hb.ok (hb.known hg) _).mpr List.prefix_rfl)
  · exact ((key_asks x hb.ok (hb.known hg) _).mp ha).length_le.trans
      (h _ ((hb.keys hp _).mpr ⟨u, t, f, hg, rfl⟩))

theorem MixedBehind.own (hb : MixedBehind x records sub) (hp : order.Perm sub) {u t : Str} {f : List Str}
    (hg : FileGives records u t f) {id : List Byte}
    (h : OwnIn (toByteSubscriptions x.encoder order) id (keyOf x t f)) : HasOwn records t f id := by
  intro bits i ha hi hw
  have hpre := (key_asks x hb.ok (hb.known hg) _).mp ha
  have hle := hpre.length_le
  have hstart : ownStart (toByteSubscriptions x.encoder order) (keyOf x t f) ≤ i := by
    unfold ownStart
    cases hpar : parentOf (toByteSubscriptions x.encoder order) (keyOf x t f) with
    | none => exact Nat.zero_le _
    | some p =>
      obtain ⟨g1, g2, g3, -⟩ := parentOf_some (isMap_toByteSubscriptions _ _) hpar
      obtain ⟨u', t', f', hg', rfl⟩ := (hb.keys hp p).mp g1
      exact hw u' t' f' _ hg' ((hb.narrower hg hg').mpr ⟨g2, g3⟩)
        ((key_asks x hb.ok (hb.known hg') _).mpr List.prefix_rfl)
  rw [h i hstart (by omega), List.getElem?_eq_getElem hi]
  rw [List.prefix_iff_getElem?] at hpre
  rw [hpre i hi]

theorem MixedBehind.next (hb : MixedBehind x records sub) (hp : order.Perm sub) {u u' t t' : Str}
    {f f' : List Str} (hg : FileGives records u t f) (hg' : FileGives records u' t' f')
    (h : parentOf (toByteSubscriptions x.encoder order) (keyOf x t' f') = some (keyOf x t f)) :
    NextIn records (t, f) (t', f') := by
  obtain ⟨-, g2, g3, g4⟩ := parentOf_some (isMap_toByteSubscriptions _ _) h
  refine ⟨(hb.narrower hg' hg).mpr ⟨g2, g3⟩, fun u'' t'' f'' h'' hn => ?_⟩
  obtain ⟨n1, n2⟩ := (hb.narrower hg' h'').mp hn
  exact (key_of_within x hb.ok (hb.known hg) (hb.known h'')).mpr
    (g4 _ ((hb.keys hp _).mpr ⟨u'', t'', f'', h'', rfl⟩) n1 n2)

/-- patterns for found filters -/
theorem MixedBehind.patterns (hb : MixedBehind x records sub) (hp : order.Perm sub) : ∀ {ks : List Str},
    (∀ k ∈ ks, k ∈ mapKeys (toByteSubscriptions x.encoder order)) →
    ∃ l : List (Str × Str × List Str), l.map (fun p => keyOf x p.2.1 p.2.2) = ks ∧
      l.map Prod.fst = ks.map (uriOf (toByteSubscriptions x.encoder order)) ∧
      ∀ p ∈ l, FileGives records p.1 p.2.1 p.2.2
  | [], _ => ⟨[], rfl, rfl, by simp⟩
  | k :: ks, h => by
    obtain ⟨l, h1, h2, h3⟩ := hb.patterns hp (ks := ks) fun k hk => h k (List.mem_cons_of_mem _ hk)
    obtain ⟨t, f, hg, hk⟩ := hb.mem hp (uriOf_mem (h k List.mem_cons_self))
    refine ⟨(uriOf (toByteSubscriptions x.encoder order) k, t, f) :: l, ?_, ?_, ?_⟩
    · rw [List.map_cons, h1, hk]
    · rw [List.map_cons, List.map_cons, h2]
    · intro p hp
      rcases List.mem_cons.mp hp with rfl | hp
      · exact hg
      · exact h3 p hp

/-- the patterns of a walk through the lists of the splay tree -/
theorem MixedBehind.walked (hb : MixedBehind x records sub) (hp : order.Perm sub) {id : List Byte}
    (hid : id ≠ []) {v : Shelf} (hi : ShelfInv (toByteSubscriptions x.encoder order) v) {ks : List Str}
    (hw : Walk (toByteSubscriptions x.encoder order) id v (v none) ks) :
    (∃ l : List (Str × Str × List Str),
      ks.map (uriOf (toByteSubscriptions x.encoder order)) = l.map Prod.fst ∧
      (∀ p ∈ l, FileGives records p.1 p.2.1 p.2.2 ∧ HasOwn records p.2.1 p.2.2 id) ∧
      (∀ i p q, l[i]? = some p → l[i + 1]? = some q → NextIn records p.2 q.2) ∧
      ((∀ p ∈ l, PatSelects p.2.1 p.2.2 id) ∨ ∀ p ∈ l, ¬ PatSelects p.2.1 p.2.2 id)) ∧
    ((∃ u, DueIn records id u) → ks ≠ []) := by
  have hm := isMap_toByteSubscriptions x.encoder order
  have hknown := walk_known hi hw (hi.known none)
  constructor
  · obtain ⟨l, h1, h2, h3⟩ := hb.patterns hp hknown
    have hin : ∀ p ∈ l, keyOf x p.2.1 p.2.2 ∈ ks := fun p hp => by
      rw [← h1]; exact List.mem_map.mpr ⟨p, hp, rfl⟩
    have hat : ∀ {i : Nat} {p}, l[i]? = some p → ks[i]? = some (keyOf x p.2.1 p.2.2) := fun h => by
      rw [← h1, List.getElem?_map, h]; rfl
    have sel : ∀ p ∈ l, (keyOf x p.2.1 p.2.2 <+: bitsOf id ↔ PatSelects p.2.1 p.2.2 id) := fun p hp =>
      (known_key x hb.ok (hb.known (h3 p hp))).2 id hid
    refine ⟨l, h2.symm, fun p hpl => ⟨h3 p hpl, ?_⟩, ?_, ?_⟩
    · exact hb.own hp (h3 p hpl) (walk_own hw _ (hin p hpl)).1
    · intro i p q h4 h5
      exact hb.next hp (h3 p (List.mem_of_getElem? h4)) (h3 q (List.mem_of_getElem? h5))
        (walk_parents hi hw i _ _ (hat h4) (hat h5))
    · cases hk : ks[0]? with
      | none =>
        left
        intro p hpl
        rw [List.getElem?_eq_none_iff] at hk
        have := List.length_pos_of_mem (hin p hpl)
        omega
      | some k0 =>
        obtain ⟨w1, w2⟩ := walk_truth hm hi hw hk
        by_cases h0 : k0 <+: bitsOf id
        · exact Or.inl fun p hpl => (sel p hpl).mp (w1 h0 _ (hin p hpl))
        · exact Or.inr fun p hpl hs => w2 h0 _ (hin p hpl) ((sel p hpl).mpr hs)
  · rintro ⟨u, t, f, hg, hs⟩ rfl
    obtain ⟨p, p1, p2⟩ := outer_prefix hm hi _ _ (Nat.le_refl _) ((hb.keys hp _).mpr ⟨u, t, f, hg, rfl⟩)
    exact (walk_nil.mp hw p p1).1 (bits_own (p2.trans (((known_key x hb.ok (hb.known hg)).2 id hid).mpr hs)))

/-- Between a stored filter and two incomparable extensions there is one that forks. -/
theorem fork_between {S : Str → Str → Prop} : ∀ (n : Nat) {p a b u v w : Str}, a.length ≤ p.length + n → S p u →
    S a v → S b w → Extends p a → Extends p b → ¬ a <+: b → ¬ b <+: a → ∃ c, p <+: c ∧ Forks S c
  | n, p, a, b, u, v, w, hn, hp, ha, hb, hpa, hpb, h1, h2 => by
    by_cases hf : ∃ c w, S c w ∧ Extends p c ∧ c <+: a ∧ c <+: b
    · obtain ⟨c, w', hc, hpc, hca, hcb⟩ := hf
      have hlt : p.length < c.length := Nat.lt_of_le_of_ne hpc.1.length_le fun h => hpc.2 (hpc.1.eq_of_length h)
      cases n with
      | zero => have := hca.length_le; omega
      | succ n =>
        obtain ⟨d, d1, d2⟩ := fork_between n (p := c) (by omega) hc ha hb ⟨hca, by rintro rfl; exact h1 hcb⟩
          ⟨hcb, by rintro rfl; exact h2 hca⟩ h1 h2
        exact ⟨d, hpc.1.trans d1, d2⟩
    · exact ⟨p, List.prefix_rfl, ⟨u, hp⟩, a, b, v, w, ha, hb, hpa, hpb, fun c w hc hpc h =>
        hf ⟨c, w, hc, hpc, h.1, h.2⟩⟩

/-- no walk for the empty tag -/
theorem walk_empty_tag {b : FlatSubs} (hm : IsMap b) (hne : b ≠ []) {v : Shelf} (hi : ShelfInv b v)
    {ks : List Str} (hw : Walk b [] v (v none) ks) : False := by
  obtain ⟨⟨k, u⟩, he⟩ := List.exists_mem_of_ne_nil _ hne
  obtain ⟨p, p1, -⟩ := outer_prefix hm hi _ k (Nat.le_refl _) (key_of_mem he)
  cases hv : v none with
  | nil => rw [hv] at p1; cases p1
  | cons a l =>
    rw [hv] at hw
    have hcut : OwnCut b [] a := ⟨Or.inl rfl, fun i _ _ h => by simp at h⟩
    cases hw with
    | miss _ h _ => exact h hcut
    | hit _ h _ => exact h hcut

/-- what is known of the engines built from a file, after any searches -/
structure ForkEngines (x : Binutil) (sub : Subs) (E : Engines) : Prop extends StillEngines x sub E where
  splay : ∃ order : Subs, order.Perm sub ∧ ∃ v, ShelfTree (toByteSubscriptions x.encoder order) E.splay v

theorem forkEngines_new (hb : MixedBehind x records sub) (hne : ∃ u t f, FileGives records u t f)
    {o1 o2 o3 : Subs} (h1 : o1.Perm sub) (h2 : o2.Perm sub) (h3 : o3.Perm sub) :
    ∃ E, newEngines x.encoder sub o1 o2 o3 = some E ∧ ForkEngines x sub E := by
  obtain ⟨-, -, t, e, hs⟩ := splay_shelf x.encoder o3 (hb.nonempty h3 hne) fun k u h => hb.bits h3 h
  exact ⟨_, by unfold newEngines; rw [e]; rfl, ⟨List.Perm.refl _, ⟨o1, h1, rfl⟩, ⟨o2, h2, rfl⟩⟩, ⟨o3, h3, _, hs⟩⟩

/-- one search of one engine, for any tag -/
theorem fork_engine (hb : MixedBehind x records sub) (hne : ∃ u t f, FileGives records u t f)
    {E : Engines} (hE : ForkEngines x sub E) {e : ReadEvent} {n : EngineName}
    {r : Option (SearchResult × Engines)} (h : EngineSearch translate E e n r) :
    (MustEnd records e n → r = none) ∧ (r = none → MayEnd records e n) ∧
    ∀ q E', r = some (q, E') → ForkEngines x sub E' ∧ (n ≠ .splay → GivesAnswer records e q n) ∧
      (n = .splay → SplayAnswer records e q) := by
  by_cases hns : n ≠ .splay
  · obtain ⟨a, b⟩ := still_engine hb hne hE.toStillEngines hns h
    have h1 : MustEnd records e n ↔ EndsIn records e n := by cases n <;> first | exact Iff.rfl | exact absurd rfl hns
    have h2 : MayEnd records e n ↔ EndsIn records e n := by cases n <;> first | exact Iff.rfl | exact absurd rfl hns
    rw [h1, h2]
    exact ⟨a.mpr, a.mp, fun q E' h => ⟨(b q E' h).1 ▸ hE, fun _ => (b q E' h).2, fun h => absurd h hns⟩⟩
  cases h with
  | legacy => exact absurd (by simp) hns
  | list => exact absurd (by simp) hns
  | patricia => exact absurd (by simp) hns
  | splay =>
    obtain ⟨o, ho, v, hv⟩ := hE.splay
    have hm := isMap_toByteSubscriptions x.encoder o
    have hbk := hb.bitKeys ho
    obtain ⟨s1, s2⟩ := shelfTree_search hm hbk hv e.2
    have hi : ShelfInv (toByteSubscriptions x.encoder o) v := by obtain ⟨-, -, -, hi⟩ := hv; exact hi
    unfold SNode.searchEngine
    by_cases hw : ∃ ks, Walk (toByteSubscriptions x.encoder o) e.2 v (v none) ks
    · obtain ⟨ks, hw⟩ := hw
      have hid : e.2 ≠ [] := fun h0 => by
        rw [h0] at hw; exact walk_empty_tag hm (hb.nonempty ho hne) hi hw
      obtain ⟨t', a1, a2, -⟩ := s2 ks hw
      obtain ⟨c1, c2⟩ := hb.walked ho hid hi hw
      rw [a1]
      dsimp only
      rw [Option.map_map, Option.map_eq_none_iff]
      unfold finishSearch
      by_cases h0 : ks = []
      · subst h0
        refine ⟨?_, fun h => (by cases h), fun q E' h => ?_⟩
        · rintro (h | ⟨h, -⟩)
          · exact absurd h hid
          · exact absurd rfl (c2 h)
        · cases h
          exact ⟨⟨⟨hE.legacy, hE.list, hE.patricia⟩, o, ho, _, a2⟩, fun h => absurd rfl h, fun _ =>
            ⟨c1, fun h => absurd rfl (c2 h), fun h => absurd rfl h, fun _ => ⟨rfl, rfl⟩⟩⟩
      · have hl : (ks.map (uriOf (toByteSubscriptions x.encoder o))).length ≠ 0 := by
          rw [List.length_map]; exact fun h => h0 (List.length_eq_zero_iff.mp h)
        rw [if_neg hl]
        cases htr : translate e.1 e.2 with
        | none => exact ⟨fun _ => rfl, fun _ => Or.inr htr, fun q E' h => by cases h⟩
        | some p =>
          refine ⟨?_, fun h => (by cases h), fun q E' h => ?_⟩
          · rintro (h | ⟨-, h⟩)
            · exact absurd h hid
            · rw [htr] at h; cases h
          · cases h
            exact ⟨⟨⟨hE.legacy, hE.list, hE.patricia⟩, o, ho, _, a2⟩, fun h => absurd rfl h, fun _ =>
              ⟨c1, fun h h' => c2 h (List.map_eq_nil_iff.mp h'), fun _ => htr, fun h => absurd (List.map_eq_nil_iff.mp h) h0⟩⟩
    · rw [s1 fun ks hk => hw ⟨ks, hk⟩]
      refine ⟨fun _ => rfl, fun _ => Or.inl fun hlong => hw ?_, fun q E' h => by cases h⟩
      obtain ⟨hid, hfit⟩ := (hb.long ho).mp hlong
      exact shelfTree_answers hm hbk hv hid hfit

/-- one search of the factory, for any tag -/
theorem fork_factory (hb : MixedBehind x records sub) (hne : ∃ u t f, FileGives records u t f)
    {e : ReadEvent} {sel : EngineName} {E : Engines} {others : List EngineName}
    {r : Option (SearchResult × Engines)} (h : FactorySearch translate e sel E others r)
    (hE : ForkEngines x sub E) :
    ((∃ n ∈ sel :: others, MustEnd records e n) → r = none) ∧
    (r = none → ∃ n ∈ sel :: others, MayEnd records e n) ∧
    ∀ q E', r = some (q, E') → ForkEngines x sub E' ∧ (sel ≠ .splay → GivesAnswer records e q sel) ∧
      (sel = .splay → SplayAnswer records e q) := by
  induction h with
  | selected h =>
    obtain ⟨a, b, c⟩ := fork_engine hb hne hE h
    refine ⟨?_, fun h => ⟨_, List.mem_cons_self, b h⟩, c⟩
    rintro ⟨n, hn, h⟩
    rw [List.mem_singleton] at hn
    exact a (hn ▸ h)
  | other h _ ih =>
    obtain ⟨a, b, c⟩ := fork_engine hb hne hE h
    obtain ⟨a', b', c'⟩ := ih (c _ _ rfl).1
    refine ⟨?_, fun h => ?_, c'⟩
    · rintro ⟨n, hn, hend⟩
      simp only [List.mem_cons] at hn
      rcases hn with rfl | rfl | hn
      · exact a' ⟨_, List.mem_cons_self, hend⟩
      · cases a hend
      · exact a' ⟨n, List.mem_cons_of_mem _ hn, hend⟩
    · obtain ⟨n, hn, h⟩ := b' h
      exact ⟨n, by rcases List.mem_cons.mp hn with h | h <;> simp [h], h⟩
  | panic h =>
    obtain ⟨-, b, -⟩ := fork_engine hb hne hE h
    exact ⟨fun _ => rfl, fun _ => ⟨_, by simp, b rfl⟩, fun q E' h => by cases h⟩

theorem fork_answered (hb : MixedBehind x records sub) (hne : ∃ u t f, FileGives records u t f)
    {can : List EngineName → EngineName → Prop} {events : List ReadEvent}
    {results : List SearchResult} {E E' : Engines} (h : Answered (enginesAnswer translate can) E events results E')
    (hE : ForkEngines x sub E) : ForkEngines x sub E' := by
  induction h with
  | nil => exact hE
  | cons h _ ih =>
    obtain ⟨o, sel, -, h⟩ := h
    exact ih ((fork_factory hb hne h hE).2.2 _ _ rfl).1

/-- tags that are long enough and can be translated end no engine -/
theorem long_safe (hb : MixedBehind x records sub) {e : ReadEvent} (hl : LongFor records e.2)
    (htr : translate e.1 e.2 ≠ none) (n : EngineName) : ¬ MayEnd records e n := by
  obtain ⟨hid, hfit⟩ := (hb.long (List.Perm.refl sub)).mp hl
  have hcut : ¬ CutIn records e.2 := by
    rintro ⟨u, t, f, hg, hc⟩
    have h1 := (known_cut x hb.ok (hb.known hg) e.2 hid).mpr hc
    have h2 := hfit _ ((hb.keys (List.Perm.refl sub) _).mpr ⟨u, t, f, hg, rfl⟩)
    obtain ⟨h3, h4⟩ := h1
    rcases h4 with h4 | h4
    · refine h4 (h3.eq_of_length_le ?_)
      rw [length_bitsOf]; exact h2
    · exact hid h4
  cases n with
  | legacy => exact htr
  | list =>
    rintro (h | h | ⟨-, h⟩)
    · exact hid h
    · exact hcut h
    · exact htr h
  | splay =>
    rintro (h | h)
    · exact h hl
    · exact htr h
  | patricia =>
    rintro (h | ⟨c, ⟨u, t, f, hg, ha⟩, -⟩ | ⟨-, h⟩)
    · exact hid h
    · have := ((key_asks x hb.ok (hb.known hg) _).mp ha).length_le.trans
        (hfit _ ((hb.keys (List.Perm.refl sub) _).mpr ⟨u, t, f, hg, rfl⟩))
      rw [List.length_append, length_bitsOf, List.length_singleton] at this
      omega
    · exact htr h

end

end Gosstrak
