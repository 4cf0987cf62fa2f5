import Verif.Proofs.Shelf
import Verif.Proofs.PlacedSearch

/-! The lists of a fresh splay tree. -/
namespace Gosstrak

open KTree

/-! ### parents -/

theorem getLast_ascending : ∀ {l : List Str} {p : Str}, l.Pairwise (· < ·) → l.getLast? = some p →
    ∀ q ∈ l, q = p ∨ q < p
  | [], _, _, h, _, _ => by simp at h
  | [a], p, _, h, q, hq => by
    simp at h hq
    exact Or.inl (hq.trans h)
  | a :: c :: l, p, hp, h, q, hq => by
    rw [List.pairwise_cons] at hp
    rw [List.getLast?_cons_cons] at h
    have ih := getLast_ascending hp.2 h
    rcases List.mem_cons.mp hq with rfl | hq
    · right
      have hpm : p ∈ c :: l := List.mem_of_getLast? h
      exact hp.1 p hpm
    · exact ih q hq

theorem mem_parents (b : FlatSubs) (k p : Str) :
    p ∈ (mapKeys b).filter (fun p => p <+: k ∧ p ≠ k) ↔ p ∈ mapKeys b ∧ p <+: k ∧ p ≠ k := by
  simp [List.mem_filter]

theorem parentOf_some {b : FlatSubs} (hm : IsMap b) {k p : Str} (h : parentOf b k = some p) :
    p ∈ mapKeys b ∧ p <+: k ∧ p ≠ k ∧ ∀ q ∈ mapKeys b, q <+: k → q ≠ k → q <+: p := by
  unfold parentOf at h
  have hp := (mem_parents b k p).mp (List.mem_of_getLast? h)
  refine ⟨hp.1, hp.2.1, hp.2.2, fun q hq h1 h2 => ?_⟩
  rcases prefix_or_prefix h1 hp.2.1 with h3 | h3
  · exact h3
  · rcases getLast_ascending ((mapKeys_lt hm).filter _) h q ((mem_parents b k q).mpr ⟨hq, h1, h2⟩) with rfl | h4
    · exact List.prefix_rfl
    · by_cases he : p = q
      · rw [he]; exact List.prefix_rfl
      · exact absurd (List.lt_trans h4 (lt_of_proper_prefix h3 he)) (List.lt_irrefl _)

theorem parentOf_none {b : FlatSubs} {k : Str} :
    parentOf b k = none ↔ ∀ q ∈ mapKeys b, q <+: k → q = k := by
  unfold parentOf
  rw [List.getLast?_eq_none_iff, List.filter_eq_nil_iff]
  constructor
  · intro h q hq h1
    have := h q hq
    simp only [decide_eq_true_eq] at this
    exact Classical.byContradiction fun h2 => this ⟨h1, h2⟩
  · intro h q hq
    simp only [decide_eq_true_eq]
    exact fun ⟨h1, h2⟩ => h2 (h q hq h1)

theorem parentOf_eq {b : FlatSubs} (hm : IsMap b) {k p : Str} (h1 : p ∈ mapKeys b) (h2 : p <+: k) (h3 : p ≠ k)
    (h4 : ∀ q ∈ mapKeys b, q <+: k → q ≠ k → q <+: p) : parentOf b k = some p := by
  cases h : parentOf b k with
  | none => exact absurd (parentOf_none.mp h p h1 h2) h3
  | some q =>
    obtain ⟨g1, g2, g3, g4⟩ := parentOf_some hm h
    exact congrArg some (prefix_antisymm (h4 q g1 g2 g3) (g4 p h1 h2 h3))

theorem ownStart_lt {b : FlatSubs} (hm : IsMap b) (k : Str) : k = [] ∨ ownStart b k < k.length := by
  by_cases hk : k = []
  · exact Or.inl hk
  · right
    unfold ownStart
    cases h : parentOf b k with
    | none => exact List.length_pos_iff.mpr hk
    | some p =>
      obtain ⟨-, g2, g3, -⟩ := parentOf_some hm h
      simp only [Option.map_some, Option.getD_some]
      rcases Nat.lt_or_ge p.length k.length with h | h
      · exact h
      · exact absurd (g2.eq_of_length (Nat.le_antisymm g2.length_le h)) g3

theorem ownStart_le {b : FlatSubs} (hm : IsMap b) (k : Str) : ownStart b k ≤ k.length := by
  rcases ownStart_lt hm k with rfl | h
  · unfold ownStart
    cases h : parentOf b [] with
    | none => exact Nat.le_refl _
    | some p => exact absurd (List.prefix_nil.mp (parentOf_some hm h).2.1) (parentOf_some hm h).2.2.1
  · exact Nat.le_of_lt h

/-! ### the comparison -/

theorem ownTest_spec {b : FlatSubs} (hm : IsMap b) {k : Str} (hk : IsBitStr k) (id : List Byte) :
    (OwnCut b id k ↔ ownTest b id k = none) ∧
    (OwnIn b id k ∧ ¬ OwnCut b id k ↔ ownTest b id k = some true) ∧
    (¬ OwnIn b id k ∧ ¬ OwnCut b id k ↔ ownTest b id k = some false) := by
  have hs : IsBitStr (k.drop (ownStart b k)) := fun c hc => hk c (List.mem_of_mem_drop hc)
  have hle := ownStart_le hm k
  have hlen : (k.drop (ownStart b k)).length = k.length - ownStart b k := List.length_drop ..
  have hlt : LabelTests (bitsOf id) (k.drop (ownStart b k)) (ownStart b k) ↔
      ∀ i, ownStart b k ≤ i → i < k.length → i < 8 * id.length → (bitsOf id)[i]? = k[i]? := by
    unfold LabelTests
    rw [hlen, length_bitsOf]
    constructor
    · intro h i h1 h2 h3
      have := h (i - ownStart b k) (by omega) (by omega)
      rw [List.getElem?_drop, show ownStart b k + (i - ownStart b k) = i by omega] at this
      exact this
    · intro h j h1 h2
      rw [List.getElem?_drop]
      exact h _ (by omega) (by omega) h2
  unfold ownTest
  by_cases hshort : id = [] ∨ 8 * id.length < k.length
  · have hcv : ¬ Covers (k.drop (ownStart b k)) (ownStart b k) id := by
      rintro ⟨c1, c2⟩
      rw [hlen] at c1
      rcases hshort with rfl | h
      · simp at c2
      · omega
    obtain ⟨m1, m2⟩ := C02_short_id_exact _ hs.filterStr (ownStart b k) id hcv
    rw [← labelTests_carries hs, hlt] at m1 m2
    have hcut : OwnCut b id k ↔
        ∀ i, ownStart b k ≤ i → i < k.length → i < 8 * id.length → (bitsOf id)[i]? = k[i]? :=
      ⟨fun h => h.2, fun h => ⟨hshort, h⟩⟩
    have hin : OwnIn b id k → OwnCut b id k := fun h => hcut.mpr fun i h1 h2 _ => h i h1 h2
    refine ⟨hcut.trans m1.symm, ?_, ?_⟩
    · constructor
      · exact fun ⟨h1, h2⟩ => absurd (hin h1) h2
      · intro h
        by_cases hc : OwnCut b id k
        · rw [m1.mpr (hcut.mp hc)] at h; cases h
        · rw [m2.mpr fun h' => hc (hcut.mpr h')] at h; cases h
    · constructor
      · exact fun ⟨_, h2⟩ => m2.mpr fun h' => h2 (hcut.mpr h')
      · intro h
        have hnc : ¬ OwnCut b id k := fun h' => m2.mp h (hcut.mp h')
        exact ⟨fun h' => hnc (hin h'), hnc⟩
  · have hcv : Covers (k.drop (ownStart b k)) (ownStart b k) id := by
      have h1 : id ≠ [] := fun h => hshort (Or.inl h)
      have h2 : ¬ 8 * id.length < k.length := fun h => hshort (Or.inr h)
      have h3 := List.length_pos_iff.mpr h1
      refine ⟨by rw [hlen]; omega, ?_⟩
      rcases ownStart_lt hm k with h | h
      · subst h; simp at hle; rw [hle]; simpa using h3
      · omega
    have hnc : ¬ OwnCut b id k := fun h => hshort h.1
    rw [matchID_drop hs hcv]
    have hin : OwnIn b id k ↔ k.drop (ownStart b k) <+: (bitsOf id).drop (ownStart b k) := by
      rw [← labelTests_covers (by rw [length_bitsOf]; exact hcv.1), hlt]
      have h2 : ¬ 8 * id.length < k.length := fun h => hshort (Or.inr h)
      exact ⟨fun h i h1 h2 _ => h i h1 h2, fun h i h1 h2 => h i h1 h2 (by omega)⟩
    simp only [hnc, false_iff, not_false_iff, and_true, hin]
    by_cases h : k.drop (ownStart b k) <+: (bitsOf id).drop (ownStart b k) <;> simp [h]

/-- stored filters are bit strings -/
def BitKeys (b : FlatSubs) : Prop := ∀ k ∈ mapKeys b, IsBitStr k

theorem walk_iff {b : FlatSubs} (hm : IsMap b) (hbit : BitKeys b) (id : List Byte) {v : Shelf}
    (hv : ∀ a, ∀ k ∈ v a, k ∈ mapKeys b) {l ks : List Str} (hl : ∀ k ∈ l, k ∈ mapKeys b) :
    CWalk (ownTest b id) v l ks ↔ Walk b id v l ks := by
  constructor
  · intro h
    induction h with
    | done => exact .done
    | @miss k l ks h1 _ ih =>
      obtain ⟨-, -, s3⟩ := ownTest_spec hm (hbit k (hl k (by simp))) id
      exact .miss (s3.mpr h1).1 (s3.mpr h1).2 (ih fun k hk => hl k (by simp [hk]))
    | @hit k l ks h1 _ ih =>
      obtain ⟨-, s2, -⟩ := ownTest_spec hm (hbit k (hl k (by simp))) id
      exact .hit (s2.mpr h1).1 (s2.mpr h1).2 (ih (hv _))
  · intro h
    induction h with
    | done => exact .done
    | @miss k l ks h1 h2 _ ih =>
      obtain ⟨-, -, s3⟩ := ownTest_spec hm (hbit k (hl k (by simp))) id
      exact .miss (s3.mp ⟨h1, h2⟩) (ih fun k hk => hl k (by simp [hk]))
    | @hit k l ks h1 h2 _ ih =>
      obtain ⟨-, s2, -⟩ := ownTest_spec hm (hbit k (hl k (by simp))) id
      exact .hit (s2.mp ⟨h1, h2⟩) (ih (hv _))

/-! ### the fresh tree -/

/-- the tree with its filters written out -/
def annot : Str → SNode → KTree
  | P, .node _ (some f) m mm => .node (P ++ f.str) (annot (P ++ f.str) m) (annot P mm)
  | _, _ => .nil

/-- every list is in key order -/
def AscTree : SNode → Prop
  | .node u (some f) m mm =>
    (SNode.chain (.node u (some f) m mm)).Pairwise (· < ·) ∧ AscTree m ∧ AscTree mm
  | _ => True

theorem annot_chain : ∀ (t : SNode) (P : Str), (annot P t).chain = (SNode.chain t).map (P ++ ·)
  | .nil, _ => rfl
  | .node _ none _ _, _ => rfl
  | .node u (some f) m mm, P => by simp [annot, KTree.chain, SNode.chain, annot_chain mm P]

theorem annot_keys : ∀ (t : SNode) (P : Str), (annot P t).keys = (SNode.content P t).map Prod.fst
  | .nil, _ => rfl
  | .node _ none _ _, _ => rfl
  | .node u (some f) m mm, P => by simp [annot, keys, SNode.content, annot_keys m, annot_keys mm]

theorem append_lt {P a c : Str} (h : a < c) : P ++ a < P ++ c := by
  induction P with
  | nil => exact h
  | cons x P ih => exact List.cons_lt_cons_iff.mpr (Or.inr ⟨rfl, ih⟩)

theorem annot_asc : ∀ (t : SNode) (P : Str), AscTree t →
    (annot P t).chain.Pairwise (· < ·) ∧ ∀ e ∈ (annot P t).nodes, e.2.Pairwise (· < ·)
  | .nil, _, _ => ⟨List.Pairwise.nil, by simp [annot, KTree.nodes]⟩
  | .node _ none _ _, _, _ => ⟨List.Pairwise.nil, by simp [annot, KTree.nodes]⟩
  | .node u (some f) m mm, P, ⟨h1, h2, h3⟩ => by
    obtain ⟨a1, a2⟩ := annot_asc m (P ++ f.str) h2
    obtain ⟨b1, b2⟩ := annot_asc mm P h3
    refine ⟨?_, ?_⟩
    · rw [annot_chain]
      exact List.Pairwise.map _ (fun _ _ h => append_lt h) h1
    · intro e he
      simp only [annot, KTree.nodes, List.mem_cons, List.mem_append] at he
      rcases he with rfl | he | he
      · exact a1
      · exact a2 e he
      · exact b2 e he

theorem content_nodup : ∀ (t : SNode) (P : Str), SNode.WF P t → ((SNode.content P t).map Prod.fst).Nodup
  | .nil, _, _ => List.nodup_nil
  | .node _ none _ _, _, h => h.elim
  | .node u (some f) m mm, P, ⟨hbit, hf, ha, hn, hwm, hwmm⟩ => by
    simp only [SNode.content, List.map_cons, List.map_append, List.nodup_cons, List.nodup_append,
      List.mem_append, List.mem_map]
    refine ⟨?_, content_nodup m _ hwm, content_nodup mm _ hwmm, ?_⟩
    · rintro (⟨e, he, h⟩ | ⟨e, he, h⟩)
      · exact (scontent_below hn he).2 h.symm
      · exact (scontent_rest ha he).1 (h ▸ List.prefix_rfl)
    · rintro _ ⟨e, he, rfl⟩ _ ⟨e', he', rfl⟩ h
      exact (scontent_rest ha he').1 (h ▸ (scontent_below hn he).1)

theorem annot_spec {b : FlatSubs} (hm : IsMap b) : ∀ (t : SNode) (P : Str) (a : Option Str), SNode.WF P t →
    (∀ k u, (k, u) ∈ SNode.content P t → mapGet b k = some u) →
    (a = none ∧ P = [] ∨ a = some P ∧ P ∈ mapKeys b ∧ ∀ k ∈ SNode.chain t, k ≠ []) →
    (∀ e ∈ SNode.content P t, ∀ p ∈ mapKeys b, p <+: e.1 →
      p ∈ (SNode.content P t).map Prod.fst ∨ (p <+: P ∧ a = some P)) →
    (annot P t).erase b = t ∧ (∀ k ∈ (annot P t).chain, parentOf b k = a) ∧
    ∀ e ∈ (annot P t).nodes, ∀ k ∈ e.2, parentOf b k = some e.1
  | .nil, _, _, _, _, _, _ => ⟨rfl, by simp [annot, KTree.chain], by simp [annot, KTree.nodes]⟩
  | .node _ none _ _, _, _, h, _, _, _ => h.elim
  | .node u (some f) m mm, P, a, ⟨hbit, hf, ha, hn, hwm, hwmm⟩, hget, hpar, hinv => by
    have own : (P ++ f.str, u) ∈ SNode.content P (.node u (some f) m mm) := by simp [SNode.content]
    have hown := hget _ _ own
    have hin : P ++ f.str ∈ mapKeys b := by
      rw [mem_mapKeys]
      exact List.mem_map.mpr ⟨_, mapGet_mem hown, rfl⟩
    -- proper prefixes of the key of this node
    have hpre : ∀ p ∈ mapKeys b, p <+: P ++ f.str → p ≠ P ++ f.str → p <+: P ∧ a = some P := by
      intro p hp h1 h2
      rcases hinv _ own p hp h1 with h | h
      · obtain ⟨e, he, rfl⟩ := List.mem_map.mp h
        simp only [SNode.content, List.mem_cons, List.mem_append] at he
        rcases he with rfl | he | he
        · exact absurd rfl h2
        · exact absurd (prefix_antisymm h1 (scontent_below hn he).1) h2
        · exact absurd h1 (scontent_rest ha he).2
      · exact h
    have hparent : parentOf b (P ++ f.str) = a := by
      rcases hpar with ⟨rfl, rfl⟩ | ⟨rfl, h1, h2⟩
      · rw [parentOf_none]
        intro q hq h
        exact Classical.byContradiction fun hne => by
          have := (hpre q hq h hne).2
          cases this
      · refine parentOf_eq hm h1 (List.prefix_append _ _) ?_ fun q hq g1 g2 => (hpre q hq g1 g2).1
        intro h
        exact h2 f.str (by simp [SNode.chain]) (List.self_eq_append_right.mp h)
    have hstart : ownStart b (P ++ f.str) = P.length := by
      unfold ownStart
      rw [hparent]
      rcases hpar with ⟨rfl, rfl⟩ | ⟨rfl, -, -⟩ <;> rfl
    obtain ⟨a1, a2, a3⟩ := annot_spec hm m (P ++ f.str) (some (P ++ f.str)) hwm
      (fun k v h => hget k v (by simp [SNode.content, h])) (Or.inr ⟨rfl, hin, hn⟩) (by
        intro e he p hp h
        rcases hinv e (by simp [SNode.content, he]) p hp h with h' | h'
        · obtain ⟨e', he', rfl⟩ := List.mem_map.mp h'
          simp only [SNode.content, List.mem_cons, List.mem_append] at he'
          rcases he' with rfl | he' | he'
          · exact Or.inr ⟨List.prefix_rfl, rfl⟩
          · exact Or.inl (List.mem_map.mpr ⟨e', he', rfl⟩)
          · have hb := (scontent_below hn he).1
            rcases prefix_or_prefix h hb with g | g
            · exact absurd g (scontent_rest ha he').2
            · exact absurd g (scontent_rest ha he').1
        · exact Or.inr ⟨h'.1.trans (List.prefix_append _ _), rfl⟩)
    obtain ⟨b1, b2, b3⟩ := annot_spec hm mm P a hwmm
      (fun k v h => hget k v (by simp [SNode.content, h]))
      (hpar.imp (fun h => h) fun ⟨h1, h2, h3⟩ => ⟨h1, h2, fun k hk => h3 k (by simp [SNode.chain, hk])⟩) (by
        intro e he p hp h
        rcases hinv e (by simp [SNode.content, he]) p hp h with h' | h'
        · obtain ⟨e', he', rfl⟩ := List.mem_map.mp h'
          simp only [SNode.content, List.mem_cons, List.mem_append] at he'
          rcases he' with rfl | he' | he'
          · exact absurd h (scontent_rest ha he).1
          · exact absurd ((scontent_below hn he').1.trans h) (scontent_rest ha he).1
          · exact Or.inl (List.mem_map.mpr ⟨e', he', rfl⟩)
        · exact Or.inr h')
    refine ⟨?_, ?_, ?_⟩
    · rw [annot, erase, a1, b1, hstart, List.drop_left, ← hf]
      congr 1
      unfold uriOf
      rw [hown]
      rfl
    · intro k hk
      simp only [annot, KTree.chain, List.mem_cons] at hk
      rcases hk with rfl | hk
      · exact hparent
      · exact b2 k hk
    · intro e he
      simp only [annot, KTree.nodes, List.mem_cons, List.mem_append] at he
      rcases he with rfl | he | he
      · exact a2
      · exact a3 e he
      · exact b3 e he

theorem build_asc : ∀ (fuel : Nat) (b : BSub), Linked b → AscTree (SNode.build fuel b)
  | 0, _, _ => trivial
  | fuel + 1, b, hl => by
    have key : ∀ ks : List Str, ks.Pairwise (· < ·) →
        AscTree (ks.foldr (SNode.buildStep (SNode.build fuel) b) SNode.nil) ∧
        ∀ k ∈ SNode.chain (ks.foldr (SNode.buildStep (SNode.build fuel) b) SNode.nil), k ∈ ks := by
      intro ks
      induction ks with
      | nil => intro _; exact ⟨trivial, by simp [SNode.chain]⟩
      | cons fs ks ih =>
        intro hlt
        rw [List.pairwise_cons] at hlt
        obtain ⟨i1, i2⟩ := ih hlt.2
        rw [List.foldr_cons]
        generalize ks.foldr (SNode.buildStep (SNode.build fuel) b) SNode.nil = next at i1 i2
        have hstep : ∀ r : Option PSub, mapGet b fs = r →
            SNode.buildStep (SNode.build fuel) b fs next = match r with
              | some p => .node p.uri (some (newFilter fs p.offset))
                (if p.subset.length ≠ 0 then SNode.build fuel p.subset else .nil) next
              | none => next := by
          intro r hr
          unfold SNode.buildStep
          rw [hr]
          cases r <;> rfl
        cases hg : mapGet b fs with
        | none =>
          rw [hstep _ hg]
          exact ⟨i1, fun k hk => List.mem_cons_of_mem _ (i2 k hk)⟩
        | some p =>
          rw [hstep _ hg]
          obtain ⟨o, u, s⟩ := p
          have hls := hl.sub _ _ _ _ (mapGet_mem hg)
          have hsub : AscTree (if (PSub.mk o u s).subset.length ≠ 0 then SNode.build fuel (PSub.mk o u s).subset else .nil) := by
            split
            · exact build_asc fuel s hls
            · trivial
          have hnext : (SNode.chain next).Pairwise (· < ·) := by
            cases next with
            | nil => exact List.Pairwise.nil
            | node u f m mm =>
              cases f with
              | none => exact List.Pairwise.nil
              | some f => exact i1.1
          refine ⟨⟨?_, hsub, i1⟩, ?_⟩
          · simp only [SNode.chain, newFilter_str]
            exact List.pairwise_cons.mpr ⟨fun k hk => hlt.1 k (i2 k hk), hnext⟩
          · intro k hk
            simp only [SNode.chain, newFilter_str, List.mem_cons] at hk
            rcases hk with rfl | hk
            · simp
            · exact List.mem_cons_of_mem _ (i2 k hk)
    exact (key (mapKeys b) (mapKeys_lt hl.isMap)).1

theorem newSplay_asc {b : FlatSubs} (hm : IsMap b) (hb : b ≠ []) {t : SNode} (h : newSplayFrom b = some t) :
    AscTree t := by
  obtain ⟨l, h1, h2, h3, -⟩ := linkSubset_spec b hm
  unfold newSplayFrom at h
  rw [h1, Option.map_some, Option.some.injEq] at h
  have hl : ¬ l.length = 0 := by
    intro h0
    rw [List.length_eq_zero_iff] at h0
    subst h0
    cases b with
    | nil => exact hb rfl
    | cons e b => exact full_nil _ _ ((h3 e.1 e.2).mpr (by simp))
  rw [if_neg hl] at h
  rw [← h]
  exact build_asc _ l h2

theorem fst_inj {α : Type} : ∀ (l : List (Str × α)), (l.map Prod.fst).Nodup → ∀ {e e' : Str × α},
    e ∈ l → e' ∈ l → e.1 = e'.1 → e = e'
  | [], _, _, _, h, _, _ => by simp at h
  | x :: l, hn, e, e', h, h', heq => by
    rw [List.map_cons, List.nodup_cons] at hn
    rcases List.mem_cons.mp h with rfl | g <;> rcases List.mem_cons.mp h' with rfl | g'
    · rfl
    · exact absurd (List.mem_map.mpr ⟨e', g', heq.symm⟩) hn.1
    · exact absurd (List.mem_map.mpr ⟨e, g, heq⟩) hn.1
    · exact fst_inj l hn.2 g g' heq

/-- the lists of a fresh tree -/
theorem fresh_shelf {b : FlatSubs} (hm : IsMap b) (hb : b ≠ []) (hbit : BitKeys b) :
    ∃ T : KTree, newSplayFrom b = some (T.erase b) ∧ ShowsShelf T (freshShelf b) := by
  obtain ⟨t, h1, h2, h3, h4⟩ := sstores_fresh b hm hb fun k u h =>
    hbit k (by rw [mem_mapKeys]; exact List.mem_map.mpr ⟨_, h, rfl⟩)
  have hkeys : ∀ k, k ∈ (annot [] t).keys ↔ k ∈ mapKeys b := by
    intro k
    rw [annot_keys, mem_mapKeys]
    constructor
    · intro h
      obtain ⟨e, he, rfl⟩ := List.mem_map.mp h
      exact List.mem_map.mpr ⟨e, (h4 _ _).mp he, rfl⟩
    · intro h
      obtain ⟨e, he, rfl⟩ := List.mem_map.mp h
      exact List.mem_map.mpr ⟨e, (h4 _ _).mpr he, rfl⟩
  obtain ⟨a1, a2, a3⟩ := annot_spec hm t [] none h3 (fun k u h => mapGet_of_mem hm ((h4 k u).mp h))
    (Or.inl ⟨rfl, rfl⟩) (by
      intro e _ p hp _
      left
      rw [← annot_keys]
      exact (hkeys p).mpr hp)
  obtain ⟨c1, c2⟩ := annot_asc t [] (newSplay_asc hm hb h1)
  have hnd : (annot [] t).keys.Nodup := by rw [annot_keys]; exact content_nodup t [] h3
  have mem_fresh : ∀ a k, k ∈ freshShelf b a ↔ k ∈ mapKeys b ∧ parentOf b k = a := by
    intro a k
    unfold freshShelf
    rw [List.mem_filter, decide_eq_true_iff]
  have hasc : ∀ a, (freshShelf b a).Pairwise (· < ·) := fun a => (mapKeys_lt hm).filter _
  refine ⟨annot [] t, by rw [a1]; exact h1, ?_, hnd, ?_, ?_, ?_⟩
  · intro h
    cases t with
    | nil => exact h2 rfl
    | node u f m mm =>
      cases f with
      | none => exact h3.elim
      | some f => simp [annot] at h
  · refine ascending_ext c1 (hasc none) fun k => ?_
    rw [mem_fresh]
    constructor
    · exact fun h => ⟨(hkeys k).mp (chain_keys _ h), a2 k h⟩
    · rintro ⟨h, hp⟩
      rcases keys_placed _ ((hkeys k).mpr h) with h | ⟨e, he, h⟩
      · exact h
      · rw [a3 e he k h] at hp; cases hp
  · intro e he
    refine ascending_ext (hasc _) (c2 e he) fun k => ?_
    rw [mem_fresh]
    constructor
    · rintro ⟨h, hp⟩
      rcases keys_placed _ ((hkeys k).mpr h) with h | ⟨e', he', h⟩
      · rw [a2 k h] at hp; cases hp
      · rw [a3 e' he' k h, Option.some.injEq] at hp
        have : e' = e := by
          rw [keys_nodes] at hnd
          exact fst_inj _ hnd he' he hp
        rw [← this]; exact h
    · exact fun h => ⟨(hkeys k).mp (node_keys _ he h), a3 e he k h⟩
  · intro a ha
    rw [List.eq_nil_iff_forall_not_mem]
    intro k hk
    obtain ⟨-, hp⟩ := (mem_fresh _ _).mp hk
    exact ha ((hkeys a).mpr (parentOf_some hm hp).1)

end Gosstrak
