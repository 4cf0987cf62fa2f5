import Verif.Spec.Linked
import Verif.Proofs.Patricia

namespace Gosstrak

theorem full_iff (b : BSub) (q u : Str) : Full b q u ↔
    ∃ k o v s, (k, PSub.mk o v s) ∈ b ∧ ((q = k ∧ u = v) ∨ ∃ q', q = k ++ q' ∧ Full s q' u) := by
  constructor
  · rintro (⟨h⟩ | ⟨h, h'⟩)
    · exact ⟨_, _, _, _, h, Or.inl ⟨rfl, rfl⟩⟩
    · exact ⟨_, _, _, _, h, Or.inr ⟨_, rfl, h'⟩⟩
  · rintro ⟨k, o, v, s, h, ⟨rfl, rfl⟩ | ⟨q', rfl, h'⟩⟩
    · exact .here h
    · exact .under h h'

theorem full_nil (q u : Str) : ¬ Full [] q u := by
  rw [full_iff]; simp

theorem Linked.isMap {b : BSub} (h : Linked b) : IsMap b := by cases h; assumption
theorem Linked.anti {b : BSub} (h : Linked b) :
    ∀ k p k' p', (k, p) ∈ b → (k', p') ∈ b → k <+: k' → k = k' := by cases h; assumption
theorem Linked.nonempty {b : BSub} (h : Linked b) :
    ∀ k o u s, (k, PSub.mk o u s) ∈ b → ∀ k' p, (k', p) ∈ s → k' ≠ [] := by cases h; assumption
theorem Linked.sub {b : BSub} (h : Linked b) :
    ∀ k o u s, (k, PSub.mk o u s) ∈ b → Linked s := by cases h; assumption
theorem linked_nil : Linked [] := .mk (by simp [IsMap]) (by simp) (by simp) (by simp)
theorem Offsets.eq {n : Nat} {b : BSub} (h : Offsets n b) :
    ∀ k o u s, (k, PSub.mk o u s) ∈ b → o = n := by cases h; assumption
theorem Offsets.sub {n : Nat} {b : BSub} (h : Offsets n b) :
    ∀ k o u s, (k, PSub.mk o u s) ∈ b → Offsets (n + k.length) s := by cases h; assumption
theorem offsets_nil (n : Nat) : Offsets n [] := .mk (by simp) (by simp)

theorem mem_mapSet {α : Type} {m : List (Str × α)} (hm : IsMap m) (k : Str) (v : α) (q : Str) (w : α) :
    (q, w) ∈ mapSet m k v ↔ (q = k ∧ w = v) ∨ (q ≠ k ∧ (q, w) ∈ m) := by
  rw [← mapGet_iff (isMap_mapSet hm k v), mapGet_mapSet]
  by_cases h : k = q
  · simp [h, eq_comm]
  · have h' : q ≠ k := fun e => h e.symm
    simp [h, h', mapGet_iff hm]

theorem append_lt_append (e a b : Str) : e ++ a < e ++ b ↔ a < b := by
  induction e with
  | nil => rfl
  | cons c e ih => simp [ih]

/-- `x` is a proper prefix of `y` -/
def PProper (x y : Str) : Prop := x <+: y ∧ x ≠ y

theorem PProper.lt {x y : Str} (h : PProper x y) : x < y := str_lt_of_le_of_ne (prefix_le h.1) h.2

theorem PProper.trans {x y z : Str} (h : PProper x y) (h' : PProper y z) : PProper x z := by
  refine ⟨h.1.trans h'.1, ?_⟩
  rintro rfl
  exact h.2 (h.1.eq_of_length (Nat.le_antisymm h.1.length_le h'.1.length_le))

/-- what `linkSubset` may be applied to: nested parts are linked; a filter that has a proper prefix
    at the same level has no subset, and comes after everything below that prefix -/
structure Good (b : BSub) : Prop where
  isMap : IsMap b
  sub : ∀ k o u s, (k, PSub.mk o u s) ∈ b → Linked s
  nonempty : ∀ k o u s, (k, PSub.mk o u s) ∈ b → ∀ k' p, (k', p) ∈ s → k' ≠ []
  pair : ∀ k o u s k' o' u' s', (k, PSub.mk o u s) ∈ b → (k', PSub.mk o' u' s') ∈ b → PProper k k' →
    s' = [] ∧ ∀ q v, Full s q v → k ++ q < k'

/-- the new entry in the subset of a candidate keeps everything in order -/
theorem good_insert {S : BSub} {d u : Str} {o : Nat} (hS : Linked S)
    (hlt : ∀ q v, Full S q v → q < d) : Good (mapSet S d (.mk o u [])) := by
  have hm := hS.isMap
  have hnew : ∀ q w, (q, w) ∈ mapSet S d (.mk o u []) ↔ (q = d ∧ w = .mk o u []) ∨ (q ≠ d ∧ (q, w) ∈ S) :=
    fun q w => mem_mapSet hm d _ q w
  refine ⟨isMap_mapSet hm _ _, ?_, ?_, ?_⟩
  · intro k o' u' s h
    rw [hnew] at h
    rcases h with ⟨rfl, h⟩ | ⟨-, h⟩
    · injection h with _ _ h; rw [h]; exact linked_nil
    · exact hS.sub _ _ _ _ h
  · intro k o' u' s h
    rw [hnew] at h
    rcases h with ⟨rfl, h⟩ | ⟨-, h⟩
    · injection h with _ _ h; rw [h]; simp
    · exact hS.nonempty _ _ _ _ h
  · intro k o1 u1 s1 k' o2 u2 s2 h h' hp
    rw [hnew] at h h'
    rcases h with ⟨rfl, h⟩ | ⟨hk, h⟩ <;> rcases h' with ⟨rfl, h'⟩ | ⟨hk', h'⟩
    · exact absurd rfl hp.2
    · have h1 := hlt k' u2 (.here h')
      have h2 := prefix_le hp.1
      exact absurd h1 (Std.not_lt.mpr h2)
    · injection h' with _ _ h'
      exact ⟨h', fun q v hq => hlt (k ++ q) v (.under h hq)⟩
    · exact absurd (hS.anti _ _ _ _ h h' hp.1) hp.2

theorem full_insert {S : BSub} {d u : Str} {o : Nat} (hm : IsMap S)
    (hd : ∀ p, (d, p) ∉ S) (q v : Str) :
    Full (mapSet S d (.mk o u [])) q v ↔ (q = d ∧ v = u) ∨ Full S q v := by
  rw [full_iff, full_iff S]
  constructor
  · rintro ⟨k, o', u', s, h, h'⟩
    rw [mem_mapSet hm] at h
    rcases h with ⟨rfl, h⟩ | ⟨-, h⟩
    · injection h with h1 h2 h3
      subst h1; subst h2; subst h3
      rcases h' with h' | ⟨q', rfl, h'⟩
      · exact Or.inl h'
      · exact absurd h' (full_nil _ _)
    · exact Or.inr ⟨k, o', u', s, h, h'⟩
  · rintro (⟨rfl, rfl⟩ | ⟨k, o', u', s, h, h'⟩)
    · exact ⟨q, o, v, [], (mem_mapSet hm _ _ _ _).mpr (Or.inl ⟨rfl, rfl⟩), Or.inl ⟨rfl, rfl⟩⟩
    · refine ⟨k, o', u', s, (mem_mapSet hm _ _ _ _).mpr (Or.inr ⟨?_, h⟩), h'⟩
      rintro rfl; exact hd _ h

theorem offsets_insert {S : BSub} {d u : Str} {o : Nat} (hm : IsMap S) (h : Offsets o S) :
    Offsets o (mapSet S d (.mk o u [])) := by
  constructor
  · intro k o' u' s hk
    rw [mem_mapSet hm] at hk
    rcases hk with ⟨rfl, hk⟩ | ⟨-, hk⟩
    · injection hk
    · exact h.eq _ _ _ _ hk
  · intro k o' u' s hk
    rw [mem_mapSet hm] at hk
    rcases hk with ⟨rfl, hk⟩ | ⟨-, hk⟩
    · injection hk with _ _ hk; rw [hk]; exact offsets_nil _
    · exact h.sub _ _ _ _ hk

/-- what is to be shown about a call -/
def LinkOk (rec : BSub → Option BSub) (b : BSub) : Prop :=
  ∃ b', rec b = some b' ∧ Linked b' ∧ (∀ q u, Full b' q u ↔ Full b q u) ∧
    (∀ n, Offsets n b → Offsets n b') ∧ ((∀ k p, (k, p) ∈ b → k ≠ []) → ∀ k p, (k, p) ∈ b' → k ≠ [])

/-- the recursive calls that a candidate `e` of a map with bound `m` needs -/
def RecOk (rec : BSub → Option BSub) (m : Nat) : Prop :=
  ∀ b, Good b → (∀ k p, (k, p) ∈ b → k ≠ []) → (∀ q u, Full b q u → q.length ≤ m) → LinkOk rec b

/-- one matching step -/
theorem linkStep_spec {rec : BSub → Option BSub} {m : Nat} (hrec : RecOk rec m) {b : BSub}
    (hg : Good b) {e fs : Str} {pe pfs : PSub} (he : (e, pe) ∈ b) (hfs : (fs, pfs) ∈ b)
    (hp : PProper e fs) (hnone : ∀ k p, (k, p) ∈ b → ¬ PProper k e)
    (hlater : ∀ k p, (k, p) ∈ b → PProper e k → k ≠ fs → fs < k)
    (hm : ∀ q u, Full b (e ++ q) u → q.length ≤ m) :
    ∃ b', linkStep rec e b fs = some b' ∧ Good b' ∧ (∀ q u, Full b' q u ↔ Full b q u) ∧
      (∀ n, Offsets n b → Offsets n b') ∧
      (∀ k, (∃ p, (k, p) ∈ b') ↔ k ≠ fs ∧ ∃ p, (k, p) ∈ b) := by
  obtain ⟨oe, ue, S⟩ := pe
  obtain ⟨of, uf, sf⟩ := pfs
  obtain ⟨d, rfl⟩ := hp.1
  have hd : d ≠ [] := by rintro rfl; exact hp.2 (by simp)
  have hefs : e ≠ e ++ d := hp.2
  obtain ⟨hsf, hlt⟩ := hg.pair _ _ _ _ _ _ _ _ he hfs hp
  subst hsf
  have hlt' : ∀ q v, Full S q v → q < d := fun q v h => (append_lt_append e q d).mp (hlt q v h)
  have hS := hg.sub _ _ _ _ he
  have hmap := hg.isMap
  have hdn : ∀ p, (d, p) ∉ S := by
    rintro ⟨o, u, s⟩ h
    have := hlt' d u (.here h)
    exact absurd this (List.lt_irrefl d)
  have hins : ∀ o, Good (mapSet S d (.mk o uf [])) := fun o => good_insert hS hlt'
  have hfi : ∀ o q v, Full (mapSet S d (.mk o uf [])) q v ↔ (q = d ∧ v = uf) ∨ Full S q v :=
    fun o => full_insert hS.isMap hdn
  have hne : ∀ o k p, (k, p) ∈ mapSet S d (.mk o uf []) → k ≠ [] := by
    intro o k p h
    rw [mem_mapSet hS.isMap] at h
    rcases h with ⟨rfl, -⟩ | ⟨-, h⟩
    · exact hd
    · exact hg.nonempty _ _ _ _ he _ _ h
  obtain ⟨s, r1, r2, r3, r4, r5⟩ := hrec (mapSet S d (.mk (of + e.length) uf [])) (hins _) (hne _) (by
    intro q u h
    rw [hfi] at h
    rcases h with ⟨rfl, rfl⟩ | h
    · exact hm q u (.here hfs)
    · exact hm q u (.under he h))
  have hstep : linkStep rec e b (e ++ d) =
      some (mapDelete (mapSet b e (.mk oe ue s)) (e ++ d)) := by
    unfold linkStep
    rw [if_pos ⟨(by unfold hasPrefix; exact List.isPrefixOf_iff_prefix.mpr (List.prefix_append _ _)),
      fun h => hefs h.symm⟩, mapGet_of_mem hmap he, mapGet_of_mem hmap hfs]
    simp only [PSub.subset, PSub.offset, PSub.uri, List.drop_left]
    rw [r1]
  have hmem : ∀ k p, (k, p) ∈ mapDelete (mapSet b e (.mk oe ue s)) (e ++ d) ↔
      (k = e ∧ p = .mk oe ue s) ∨ (k ≠ e ∧ k ≠ e ++ d ∧ (k, p) ∈ b) := by
    intro k p
    rw [mem_mapDelete, mem_mapSet hmap]
    constructor
    · rintro ⟨h | h, h'⟩
      · exact Or.inl h
      · exact Or.inr ⟨h.1, h', h.2⟩
    · rintro (⟨rfl, rfl⟩ | ⟨h1, h2, h3⟩)
      · exact ⟨Or.inl ⟨rfl, rfl⟩, hefs⟩
      · exact ⟨Or.inr ⟨h1, h3⟩, h2⟩
  refine ⟨_, hstep, ⟨?_, ?_, ?_, ?_⟩, ?_, ?_, ?_⟩
  · exact isMap_mapDelete (isMap_mapSet hmap _ _) _
  · intro k o u s' h
    rw [hmem] at h
    rcases h with ⟨rfl, h⟩ | ⟨-, -, h⟩
    · injection h with _ _ h; rw [h]; exact r2
    · exact hg.sub _ _ _ _ h
  · intro k o u s' h
    rw [hmem] at h
    rcases h with ⟨rfl, h⟩ | ⟨-, -, h⟩
    · injection h with _ _ h; rw [h]; exact r5 (hne _)
    · exact hg.nonempty _ _ _ _ h
  · intro k o u s1 k' o' u' s2 h h' hpp
    rw [hmem] at h h'
    rcases h with ⟨rfl, h⟩ | ⟨-, -, h⟩ <;> rcases h' with ⟨rfl, h'⟩ | ⟨hk1, hk2, h'⟩
    · exact absurd rfl hpp.2
    · injection h with _ _ h; subst h
      obtain ⟨g1, g2⟩ := hg.pair _ _ _ _ _ _ _ _ he h' hpp
      refine ⟨g1, ?_⟩
      intro q v hq
      rw [r3, hfi] at hq
      rcases hq with ⟨rfl, rfl⟩ | hq
      · exact hlater _ _ h' hpp hk2
      · exact g2 q v hq
    · exact absurd hpp (hnone _ _ h)
    · exact hg.pair _ _ _ _ _ _ _ _ h h' hpp
  · intro q u
    rw [full_iff, full_iff b]
    constructor
    · rintro ⟨k, o, v, s', h, h'⟩
      rw [hmem] at h
      rcases h with ⟨rfl, h⟩ | ⟨-, -, h⟩
      · injection h with h1 h2 h3
        subst h1; subst h2; subst h3
        rcases h' with h' | ⟨q', rfl, h'⟩
        · exact ⟨_, _, _, _, he, Or.inl h'⟩
        · rw [r3, hfi] at h'
          rcases h' with ⟨rfl, rfl⟩ | h'
          · exact ⟨_, _, _, _, hfs, Or.inl ⟨rfl, rfl⟩⟩
          · exact ⟨_, _, _, _, he, Or.inr ⟨q', rfl, h'⟩⟩
      · exact ⟨k, o, v, s', h, h'⟩
    · rintro ⟨k, o, v, s', h, h'⟩
      by_cases hke : k = e
      · subst hke
        have hx := mapGet_of_mem hmap h
        rw [mapGet_of_mem hmap he] at hx
        injection hx with hx
        injection hx with h1 h2 h3
        subst h1; subst h2; subst h3
        refine ⟨k, oe, ue, s, (hmem _ _).mpr (Or.inl ⟨rfl, rfl⟩), ?_⟩
        rcases h' with h' | ⟨q', rfl, h'⟩
        · exact Or.inl h'
        · exact Or.inr ⟨q', rfl, (r3 _ _).mpr ((hfi _ _ _).mpr (Or.inr h'))⟩
      · by_cases hkf : k = e ++ d
        · subst hkf
          have hx := mapGet_of_mem hmap h
          rw [mapGet_of_mem hmap hfs] at hx
          injection hx with hx
          injection hx with h1 h2 h3
          subst h1; subst h2; subst h3
          refine ⟨e, oe, ue, s, (hmem _ _).mpr (Or.inl ⟨rfl, rfl⟩), Or.inr ?_⟩
          rcases h' with ⟨rfl, rfl⟩ | ⟨q', rfl, h'⟩
          · exact ⟨d, rfl, (r3 _ _).mpr ((hfi _ _ _).mpr (Or.inl ⟨rfl, rfl⟩))⟩
          · exact absurd h' (full_nil _ _)
        · exact ⟨k, o, v, s', (hmem _ _).mpr (Or.inr ⟨hke, hkf, h⟩), h'⟩
  · intro n ho
    have hoe := ho.eq _ _ _ _ he
    have hof := ho.eq _ _ _ _ hfs
    subst hof
    constructor
    · intro k o u s' h
      rw [hmem] at h
      rcases h with ⟨rfl, h⟩ | ⟨-, -, h⟩
      · injection h with h1 _ _; rw [h1]; exact hoe
      · exact ho.eq _ _ _ _ h
    · intro k o u s' h
      rw [hmem] at h
      rcases h with ⟨rfl, h⟩ | ⟨-, -, h⟩
      · injection h with _ _ h; subst h
        exact r4 _ (offsets_insert hS.isMap (ho.sub _ _ _ _ he))
      · exact ho.sub _ _ _ _ h
  · intro k
    constructor
    · rintro ⟨p, h⟩
      rw [hmem] at h
      rcases h with ⟨rfl, -⟩ | ⟨-, h2, h⟩
      · exact ⟨hefs, _, he⟩
      · exact ⟨h2, _, h⟩
    · rintro ⟨h1, p, h⟩
      by_cases hke : k = e
      · subst hke; exact ⟨_, (hmem _ _).mpr (Or.inl ⟨rfl, rfl⟩)⟩
      · exact ⟨p, (hmem _ _).mpr (Or.inr ⟨hke, h1, h⟩)⟩

theorem linkStep_skip {rec : BSub → Option BSub} {b : BSub} {e fs : Str} (h : ¬ PProper e fs) :
    linkStep rec e b fs = some b := by
  unfold linkStep
  rw [if_neg]
  rintro ⟨h1, h2⟩
  exact h ⟨List.isPrefixOf_iff_prefix.mp (by unfold hasPrefix at h1; exact h1), fun h => h2 h.symm⟩

/-- the inner loop for a candidate that is present -/
theorem linkInner_spec {rec : BSub → Option BSub} {m : Nat} (hrec : RecOk rec m) (e : Str) :
    ∀ (ks : List Str) (b : BSub), Good b → (∃ pe, (e, pe) ∈ b) →
    (∀ k p, (k, p) ∈ b → ¬ PProper k e) → ks.Pairwise (· < ·) →
    (∀ k ∈ ks, ∃ p, (k, p) ∈ b) → (∀ k p, (k, p) ∈ b → PProper e k → k ∈ ks) →
    (∀ q u, Full b (e ++ q) u → q.length ≤ m) →
    ∃ b', ks.foldlM (linkStep rec e) b = some b' ∧ Good b' ∧ (∀ q u, Full b' q u ↔ Full b q u) ∧
      (∀ n, Offsets n b → Offsets n b') ∧
      (∀ k, (∃ p, (k, p) ∈ b') ↔ ¬ PProper e k ∧ ∃ p, (k, p) ∈ b)
  | [], b, hg, _, _, _, _, hall, _ => by
    refine ⟨b, rfl, hg, fun _ _ => Iff.rfl, fun _ h => h, ?_⟩
    intro k
    constructor
    · rintro ⟨p, h⟩
      exact ⟨fun hp => by simpa using hall k p h hp, p, h⟩
    · exact fun h => h.2
  | fs :: ks, b, hg, he, hnone, hlt, hin, hall, hm => by
    rw [List.pairwise_cons] at hlt
    by_cases hp : PProper e fs
    · obtain ⟨pe, he⟩ := he
      obtain ⟨pfs, hfs⟩ := hin fs (by simp)
      obtain ⟨b1, s1, s2, s3, s4, s5⟩ := linkStep_spec hrec hg he hfs hp hnone (by
        intro k p h hpk hne
        have := hall k p h hpk
        rcases List.mem_cons.mp this with h' | h'
        · exact absurd h' hne
        · exact hlt.1 k h') hm
      obtain ⟨b2, t1, t2, t3, t4, t5⟩ := linkInner_spec hrec e ks b1 s2
        ((s5 e).mpr ⟨hp.2, pe, he⟩)
        (by
          intro k p h
          obtain ⟨-, p', h'⟩ := (s5 k).mp ⟨p, h⟩
          exact hnone k p' h')
        hlt.2
        (by
          intro k hk
          refine (s5 k).mpr ⟨?_, hin k (by simp [hk])⟩
          rintro rfl
          exact absurd (hlt.1 k hk) (List.lt_irrefl k))
        (by
          intro k p h hpk
          obtain ⟨hne, p', h'⟩ := (s5 k).mp ⟨p, h⟩
          rcases List.mem_cons.mp (hall k p' h' hpk) with h'' | h''
          · exact absurd h'' hne
          · exact h'')
        (by intro q u h; exact hm q u ((s3 _ _).mp h))
      refine ⟨b2, ?_, t2, ?_, fun n h => t4 n (s4 n h), ?_⟩
      · rw [List.foldlM_cons, s1]; exact t1
      · intro q u; rw [t3, s3]
      · intro k
        rw [t5, s5]
        constructor
        · rintro ⟨h1, h2, h3⟩; exact ⟨h1, h3⟩
        · rintro ⟨h1, h3⟩
          refine ⟨h1, ?_, h3⟩
          rintro rfl; exact h1 hp
    · obtain ⟨b2, t1, t⟩ := linkInner_spec hrec e ks b hg he hnone hlt.2
        (fun k hk => hin k (by simp [hk]))
        (by
          intro k p h hpk
          rcases List.mem_cons.mp (hall k p h hpk) with h' | h'
          · subst h'; exact absurd hpk hp
          · exact h') hm
      refine ⟨b2, ?_, t⟩
      rw [List.foldlM_cons, linkStep_skip hp]; exact t1

theorem linkInner_skip {rec : BSub → Option BSub} (e : Str) : ∀ (ks : List Str) (b : BSub),
    (∀ k ∈ ks, ¬ PProper e k) → ks.foldlM (linkStep rec e) b = some b
  | [], b, _ => rfl
  | fs :: ks, b, h => by
    rw [List.foldlM_cons, linkStep_skip (h fs (by simp))]
    exact linkInner_skip e ks b fun k hk => h k (by simp [hk])

theorem mem_keys_iff (b : BSub) (k : Str) : k ∈ mapKeys b ↔ ∃ p, (k, p) ∈ b := by
  rw [mem_mapKeys]
  simp

/-- the outer loop -/
theorem linkOuter_spec {rec : BSub → Option BSub} {m : Nat} (hrec : RecOk rec m) :
    ∀ (es done : List Str) (b : BSub), Good b → (done ++ es).Pairwise (· < ·) →
    (∀ k p, (k, p) ∈ b → k ∈ done ++ es) →
    (∀ x ∈ done, ∀ k p, (k, p) ∈ b → ¬ PProper x k) →
    (∀ k ∈ done ++ es, (∃ p, (k, p) ∈ b) ∨ ∃ x ∈ done, PProper x k) →
    (∀ e ∈ es, ∀ q u, Full b (e ++ q) u → q.length ≤ m) →
    ∃ b', es.foldlM (fun b e => (mapKeys b).foldlM (linkStep rec e) b) b = some b' ∧ Good b' ∧
      (∀ q u, Full b' q u ↔ Full b q u) ∧ (∀ n, Offsets n b → Offsets n b') ∧
      (∀ k p, (k, p) ∈ b' → ∃ p, (k, p) ∈ b) ∧
      (∀ k p k' p', (k, p) ∈ b' → (k', p') ∈ b' → ¬ PProper k k')
  | [], done, b, hg, _, hsub, hdone, _, _ => by
    refine ⟨b, rfl, hg, fun _ _ => Iff.rfl, fun _ h => h, fun k p h => ⟨p, h⟩, ?_⟩
    intro k p k' p' h h'
    exact hdone k (by simpa using hsub k p h) k' p' h'
  | e :: es, done, b, hg, hlt, hsub, hdone, hpres, hm => by
    have happ : done ++ e :: es = (done ++ [e]) ++ es := by simp
    -- no key of `b` is a proper prefix of a present `e`
    have hbefore : ∀ k, k ∈ done ++ e :: es → k < e → k ∈ done := by
      intro k hk hke
      rw [List.pairwise_append] at hlt
      rcases List.mem_append.mp hk with h | h
      · exact h
      · rcases List.mem_cons.mp h with rfl | h
        · exact absurd hke (List.lt_irrefl k)
        · have := (List.pairwise_cons.mp hlt.2.1).1 k h
          exact absurd (List.lt_trans hke this) (List.lt_irrefl k)
    rw [List.foldlM_cons]
    by_cases he : ∃ pe, (e, pe) ∈ b
    · obtain ⟨b1, s1, s2, s3, s4, s5⟩ := linkInner_spec hrec e (mapKeys b) b hg he
        (by
          intro k p h hp
          obtain ⟨pe, he⟩ := he
          exact hdone k (hbefore k (hsub k p h) hp.lt) e pe he hp)
        (mapKeys_lt hg.isMap)
        (fun k hk => (mem_keys_iff b k).mp hk)
        (fun k p h _ => (mem_keys_iff b k).mpr ⟨p, h⟩)
        (hm e (by simp))
      rw [s1]
      obtain ⟨b2, t1, t2, t3, t4, t5, t6⟩ := linkOuter_spec hrec es (done ++ [e]) b1 s2
        (by rw [← happ]; exact hlt)
        (by
          intro k p h
          obtain ⟨-, p', h'⟩ := (s5 k).mp ⟨p, h⟩
          rw [← happ]; exact hsub k p' h')
        (by
          intro x hx k p h
          obtain ⟨hn, p', h'⟩ := (s5 k).mp ⟨p, h⟩
          rcases List.mem_append.mp hx with hx | hx
          · exact hdone x hx k p' h'
          · simp only [List.mem_singleton] at hx; subst hx; exact hn)
        (by
          intro k hk
          rw [← happ] at hk
          by_cases hpe : PProper e k
          · exact Or.inr ⟨e, by simp, hpe⟩
          · rcases hpres k hk with h | ⟨x, hx, hp⟩
            · exact Or.inl ((s5 k).mpr ⟨hpe, h⟩)
            · exact Or.inr ⟨x, by simp [hx], hp⟩)
        (by
          intro e' he' q u h
          exact hm e' (by simp [he']) q u ((s3 _ _).mp h))
      refine ⟨b2, t1, t2, fun q u => by rw [t3, s3], fun n h => t4 n (s4 n h), ?_, t6⟩
      intro k p h
      obtain ⟨p', h'⟩ := t5 k p h
      exact ((s5 k).mp ⟨p', h'⟩).2
    · have hskip : ∀ k ∈ mapKeys b, ¬ PProper e k := by
        intro k hk hp
        obtain ⟨p, h⟩ := (mem_keys_iff b k).mp hk
        rcases hpres e (by simp) with h' | ⟨x, hx, hxe⟩
        · exact he h'
        · exact hdone x hx k p h (hxe.trans hp)
      rw [linkInner_skip e _ b hskip]
      obtain ⟨b2, t1, t⟩ := linkOuter_spec hrec es (done ++ [e]) b hg
        (by rw [← happ]; exact hlt) (by rw [← happ]; exact hsub)
        (by
          intro x hx k p h
          rcases List.mem_append.mp hx with hx | hx
          · exact hdone x hx k p h
          · simp only [List.mem_singleton] at hx; subst hx
            exact hskip k ((mem_keys_iff b k).mpr ⟨p, h⟩))
        (by
          intro k hk
          rw [← happ] at hk
          rcases hpres k hk with h | ⟨x, hx, hp⟩
          · exact Or.inl h
          · exact Or.inr ⟨x, by simp [hx], hp⟩)
        (fun e' he' => hm e' (by simp [he']))
      exact ⟨b2, t1, t⟩

theorem link_level {rec : BSub → Option BSub} {m : Nat} (hrec : RecOk rec m) (b : BSub) (hg : Good b)
    (hm : ∀ e p, (e, p) ∈ b → ∀ q u, Full b (e ++ q) u → q.length ≤ m) :
    LinkOk (fun b => (mapKeys b).foldlM (fun b e => (mapKeys b).foldlM (linkStep rec e) b) b) b := by
  obtain ⟨b', h1, h2, h3, h4, h5, h6⟩ := linkOuter_spec hrec (mapKeys b) [] b hg
    (by simpa using mapKeys_lt hg.isMap)
    (by intro k p h; simpa using (mem_keys_iff b k).mpr ⟨p, h⟩)
    (by simp)
    (by intro k hk; exact Or.inl ((mem_keys_iff b k).mp (by simpa using hk)))
    (by
      intro e he
      obtain ⟨p, h⟩ := (mem_keys_iff b e).mp he
      exact hm e p h)
  refine ⟨b', h1, .mk h2.isMap ?_ h2.nonempty h2.sub, h3, h4, ?_⟩
  · intro k p k' p' h h' hp
    by_cases hne : k = k'
    · exact hne
    · exact absurd ⟨hp, hne⟩ (h6 k p k' p' h h')
  · intro hk k p h
    obtain ⟨p', h'⟩ := h5 k p h
    exact hk k p' h'

theorem link_recOk : ∀ m, RecOk (link (m + 1)) m
  | 0, b, hg, hne, hm => by
    have hb : b = [] := by
      cases b with
      | nil => rfl
      | cons e b =>
        obtain ⟨k, o, u, s⟩ := e
        have h1 := hne k (.mk o u s) (by simp)
        have h2 := hm k u (.here (by simp : (k, PSub.mk o u s) ∈ _))
        rw [Nat.le_zero, List.length_eq_zero_iff] at h2
        exact absurd h2 h1
    subst hb
    exact ⟨[], rfl, linked_nil, fun _ _ => Iff.rfl, fun _ h => h, fun h => h⟩
  | m + 1, b, hg, hne, hm => by
    refine link_level (link_recOk m) b hg ?_
    intro e p he q u h
    have h1 := hm _ _ h
    have h2 := hne e p he
    rw [← List.length_pos_iff] at h2
    rw [List.length_append] at h1
    omega

theorem mem_ofFlat {b : FlatSubs} {k u : Str} {o : Nat} {s : BSub} :
    (k, PSub.mk o u s) ∈ ofFlat b ↔ (k, u) ∈ b ∧ o = 0 ∧ s = [] := by
  unfold ofFlat
  simp only [List.mem_map, Prod.mk.injEq, PSub.mk.injEq, Prod.exists]
  constructor
  · rintro ⟨k', u', h, rfl, rfl, rfl, rfl⟩; exact ⟨h, rfl, rfl⟩
  · rintro ⟨h, rfl, rfl⟩; exact ⟨k, u, h, rfl, rfl, rfl, rfl⟩

theorem full_ofFlat (b : FlatSubs) (q u : Str) : Full (ofFlat b) q u ↔ (q, u) ∈ b := by
  rw [full_iff]
  constructor
  · rintro ⟨k, o, v, s, h, h'⟩
    rw [mem_ofFlat] at h
    obtain ⟨h1, -, rfl⟩ := h
    rcases h' with ⟨rfl, rfl⟩ | ⟨q', -, h'⟩
    · exact h1
    · exact absurd h' (full_nil _ _)
  · intro h
    exact ⟨q, 0, u, [], mem_ofFlat.mpr ⟨h, rfl, rfl⟩, Or.inl ⟨rfl, rfl⟩⟩

theorem linkSubset_spec (b : FlatSubs) (hm : IsMap b) :
    ∃ b', linkSubset b = some b' ∧ Linked b' ∧ (∀ q u, Full b' q u ↔ (q, u) ∈ b) ∧ Offsets 0 b' := by
  have hlen : ∀ k u, (k, u) ∈ b → k.length ≤ maxKeyLength b := by
    intro k u h
    exact le_maxKeyLength b (k, u) h
  have hg : Good (ofFlat b) := by
    refine ⟨?_, ?_, ?_, ?_⟩
    · unfold IsMap ofFlat; rw [List.map_map]; exact hm
    · intro k o u s h; rw [(mem_ofFlat.mp h).2.2]; exact linked_nil
    · intro k o u s h; rw [(mem_ofFlat.mp h).2.2]; simp
    · intro k o u s k' o' u' s' h h' hp
      refine ⟨(mem_ofFlat.mp h').2.2, ?_⟩
      intro q v hq
      rw [(mem_ofFlat.mp h).2.2] at hq
      exact absurd hq (full_nil _ _)
  obtain ⟨b', h1, h2, h3, h4, -⟩ := link_level (link_recOk (maxKeyLength b)) (ofFlat b) hg (by
    intro e p he q u h
    rw [full_ofFlat] at h
    have := hlen _ _ h
    rw [List.length_append] at this
    omega)
  refine ⟨b', h1, h2, fun q u => by rw [h3, full_ofFlat], h4 0 ?_⟩
  constructor
  · intro k o u s h; exact (mem_ofFlat.mp h).2.1
  · intro k o u s h; rw [(mem_ofFlat.mp h).2.2]; exact offsets_nil _

end Gosstrak
