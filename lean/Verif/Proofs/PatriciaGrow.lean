import Verif.Proofs.PatriciaShape

/-! How additions and deletions change the nodes of a trie. -/
namespace Gosstrak

open PNode

/-- a new leaf, or an addition below -/
def addBelow (t : PNode) (s uri : Str) (o : Nat) : PNode :=
  match t with
  | .nil => .node uri (newFilter s o) .nil .nil
  | t => t.add s uri

/-- what an addition does at one node -/
theorem add_cases (u : Str) (f : FilterObject) (one zero : PNode) (P fs uri : Str)
    (hw : WF P (.node u f one zero)) (hfs : IsBitStr fs) :
    (fs = f.str ∧ (node u f one zero).add fs uri = .node uri f one zero) ∨
    (∃ r, fs = f.str ++ '1' :: r ∧ (node u f one zero).add fs uri =
      .node u f (addBelow one ('1' :: r) uri (P ++ f.str).length) zero) ∨
    (∃ r, fs = f.str ++ '0' :: r ∧ (node u f one zero).add fs uri =
      .node u f one (addBelow zero ('0' :: r) uri (P ++ f.str).length)) ∨
    (∃ n r s, fs = n ++ '1' :: r ∧ f.str = n ++ '0' :: s ∧ (node u f one zero).add fs uri =
      .node [] (newFilter n P.length) (.node uri (newFilter ('1' :: r) (P ++ n).length) .nil .nil)
        (.node u (newFilter ('0' :: s) (P ++ n).length) one zero)) ∨
    (∃ n r s, fs = n ++ '0' :: r ∧ f.str = n ++ '1' :: s ∧ (node u f one zero).add fs uri =
      .node [] (newFilter n P.length) (.node u (newFilter ('1' :: s) (P ++ n).length) one zero)
        (.node uri (newFilter ('0' :: r) (P ++ n).length) .nil .nil)) ∨
    (fs <+: f.str ∧ fs ≠ f.str ∧ (node u f one zero).add fs uri =
      .node [] (newFilter fs P.length) one zero) := by
  obtain ⟨hbit, hf, -⟩ := hw
  have hsize : f.size = f.str.length := by rw [hf]; rfl
  have hoff : f.offset = P.length := by rw [hf]; rfl
  by_cases hpre : f.str <+: fs
  · have hhp := (hasPrefix_iff fs f.str).mpr hpre
    by_cases heq : fs = f.str
    · left
      refine ⟨heq, ?_⟩
      unfold add
      rw [if_pos hhp, if_pos heq]
      by_cases h : u = uri
      · simp [h]
      · simp [h]
    · obtain ⟨c, r, hcr⟩ := proper_prefix_cases hpre heq
      subst hcr
      have hgt : (f.str ++ c :: r).length > f.size := by rw [hsize]; simp
      have hdrop : (f.str ++ c :: r).drop f.size = c :: r := by rw [hsize]; simp
      have hlen : f.offset + f.size = (P ++ f.str).length := by rw [hsize, hoff, List.length_append]
      rcases hfs c (by simp) with rfl | rfl
      · right; right; left
        refine ⟨r, rfl, ?_⟩
        unfold add addBelow
        simp only [hhp, if_true, heq, if_false, hgt, hdrop, hlen]
        cases zero <;> rfl
      · right; left
        refine ⟨r, rfl, ?_⟩
        unfold add addBelow
        simp only [hhp, if_true, heq, if_false, hgt, hdrop, hlen]
        cases one <;> rfl
  · have hhp : ¬ hasPrefix fs f.str = true := fun h => hpre ((hasPrefix_iff fs f.str).mp h)
    obtain ⟨l1, l2, l3⟩ := lcp2_spec fs f.str
    generalize hncp : lcp [fs, f.str] = ncp at *
    have hnf : f.str ≠ ncp := by rintro h; rw [← h] at l1; exact hpre l1
    by_cases hnfs : fs = ncp
    · right; right; right; right; right
      refine ⟨hnfs ▸ l2, fun h => hnf (h ▸ hnfs), ?_⟩
      have hge : ncp.length ≥ fs.length := by rw [hnfs]; exact Nat.le_refl _
      unfold add
      rw [if_neg hhp]
      dsimp only
      rw [hncp, if_pos hge, hoff, ← hnfs]
    · obtain ⟨c, r, hcr⟩ := proper_prefix_cases l1 hnfs
      obtain ⟨d, s, hds⟩ := proper_prefix_cases l2 hnf
      have hcd : c ≠ d := by
        rintro rfl
        have : ncp ++ [c] <+: ncp := by
          apply l3
          · rw [hcr]; exact ⟨r, by simp⟩
          · rw [hds]; exact ⟨s, by simp⟩
        have := this.length_le
        simp at this
        omega
      have hcb : c = '0' ∨ c = '1' := hfs c (by rw [hcr]; simp)
      have hdb : d = '0' ∨ d = '1' := hbit d (by rw [hds]; simp)
      have hge : ¬ ncp.length ≥ fs.length := by rw [hcr]; simp
      have hdropf : fs.drop ncp.length = c :: r := by rw [hcr]; simp
      have hdrops : f.str.drop ncp.length = d :: s := by rw [hds]; simp
      have hoff2 : f.offset + ncp.length = (P ++ ncp).length := by rw [hoff]; simp
      rcases hcb with rfl | rfl
      · have hd1 : d = '1' := by rcases hdb with h | h; exact absurd h.symm hcd; exact h
        subst hd1
        right; right; right; right; left
        refine ⟨ncp, r, s, hcr, hds, ?_⟩
        unfold add
        rw [if_neg hhp]
        dsimp only
        rw [hncp, if_neg hge, hdropf, hdrops, hoff2, hoff]
        rfl
      · have hd0 : d = '0' := by rcases hdb with h | h; exact h; exact absurd h.symm hcd
        subst hd0
        right; right; right; left
        refine ⟨ncp, r, s, hcr, hds, ?_⟩
        unfold add
        rw [if_neg hhp]
        dsimp only
        rw [hncp, if_neg hge, hdropf, hdrops, hoff2, hoff]
        rfl

theorem safe_below {u : Str} {f : FilterObject} {one zero : PNode} {P r : Str} {t : PNode} {c : Char}
    (hh1 : one ≠ .nil → one.str.head? = some '1') (hh0 : zero ≠ .nil → zero.str.head? = some '0')
    (ht : t = one ∧ c = '1' ∨ t = zero ∧ c = '0') (h : SafeAt P (.node u f one zero) (f.str ++ c :: r)) :
    SafeAt (P ++ f.str) t (c :: r) := by
  have hfull : P ++ (f.str ++ c :: r) = (P ++ f.str) ++ c :: r := by simp
  rcases h with h | h
  · simp only [paths, List.mem_cons, List.mem_append] at h
    rw [hfull] at h
    rcases h with h | h | h
    · have := congrArg List.length h; simp at this
    · rcases ht with ⟨rfl, rfl⟩ | ⟨rfl, rfl⟩
      · exact Or.inl h
      · exact absurd List.prefix_rfl (not_mem_paths_other (by decide) hh1 _ h)
    · rcases ht with ⟨rfl, rfl⟩ | ⟨rfl, rfl⟩
      · exact absurd List.prefix_rfl (not_mem_paths_other (by decide) hh0 _ h)
      · exact Or.inl h
  · right
    intro q hq
    rw [← hfull]
    apply h q
    simp only [paths, List.mem_cons, List.mem_append]
    rcases ht with ⟨rfl, -⟩ | ⟨rfl, -⟩
    · exact Or.inr (Or.inl hq)
    · exact Or.inr (Or.inr hq)

theorem add_paths : ∀ (t : PNode) (P fs uri : Str), t ≠ .nil → WF P t → IsBitStr fs → SafeAt P t fs →
    (∀ q ∈ paths P t, q ∈ paths P (t.add fs uri)) ∧
    ∀ q ∈ paths P (t.add fs uri), q ∈ paths P t ∨ q = P ++ fs ∨ ∃ m ∈ paths P t, q = meet (P ++ fs) m
  | .nil, _, _, _, h, _, _, _ => absurd rfl h
  | .node u f one zero, P, fs, uri, _, hw, hfs, hsafe => by
    obtain ⟨hbit, hf, hw1, hw0, hh1, hh0⟩ := id hw
    have below : ∀ (t : PNode) (c : Char) (r : Str), fs = f.str ++ c :: r →
        (t = one ∧ c = '1' ∨ t = zero ∧ c = '0') → WF (P ++ f.str) t →
        (∀ q ∈ paths (P ++ f.str) t,
          q ∈ paths (P ++ f.str) (addBelow t (c :: r) uri (P ++ f.str).length)) ∧
        ∀ q ∈ paths (P ++ f.str) (addBelow t (c :: r) uri (P ++ f.str).length),
          q ∈ paths (P ++ f.str) t ∨ q = P ++ fs ∨ ∃ m ∈ paths (P ++ f.str) t, q = meet (P ++ fs) m := by
      rintro t c r rfl htd hwt
      cases t with
      | nil => simp [addBelow, paths, newFilter_str]
      | node u' f' o' z' =>
        have ih : (∀ q ∈ paths (P ++ f.str) (node u' f' o' z'),
            q ∈ paths (P ++ f.str) ((node u' f' o' z').add (c :: r) uri)) ∧
          ∀ q ∈ paths (P ++ f.str) ((node u' f' o' z').add (c :: r) uri),
            q ∈ paths (P ++ f.str) (node u' f' o' z') ∨ q = (P ++ f.str) ++ c :: r ∨
              ∃ m ∈ paths (P ++ f.str) (node u' f' o' z'), q = meet ((P ++ f.str) ++ c :: r) m := by
          have hs := safe_below hh1 hh0 htd hsafe
          rcases htd with ⟨h, -⟩ | ⟨h, -⟩
          · subst h
            exact add_paths (node u' f' o' z') (P ++ f.str) (c :: r) uri (by simp) hwt hfs.of_append_right hs
          · subst h
            exact add_paths (node u' f' o' z') (P ++ f.str) (c :: r) uri (by simp) hwt hfs.of_append_right hs
        rw [show P ++ (f.str ++ c :: r) = (P ++ f.str) ++ c :: r by simp]
        exact ih
    rcases add_cases u f one zero P fs uri hw hfs with ⟨rfl, h⟩ | ⟨r, hr, h⟩ | ⟨r, hr, h⟩ |
      ⟨n, r, s, hr, hs, h⟩ | ⟨n, r, s, hr, hs, h⟩ | ⟨h1, h2, -⟩
    · rw [h]
      simp only [paths]
      exact ⟨fun _ h => h, fun _ h => Or.inl h⟩
    · obtain ⟨b1, b2⟩ := below one '1' r hr (Or.inl ⟨rfl, rfl⟩) hw1
      rw [h]
      simp only [paths, List.mem_cons, List.mem_append]
      constructor
      · rintro q (h | h | h)
        · exact Or.inl h
        · exact Or.inr (Or.inl (b1 q h))
        · exact Or.inr (Or.inr h)
      · rintro q (h | h | h)
        · exact Or.inl (Or.inl h)
        · rcases b2 q h with h | h | ⟨m, hm, e⟩
          · exact Or.inl (Or.inr (Or.inl h))
          · exact Or.inr (Or.inl h)
          · exact Or.inr (Or.inr ⟨m, Or.inr (Or.inl hm), e⟩)
        · exact Or.inl (Or.inr (Or.inr h))
    · obtain ⟨b1, b2⟩ := below zero '0' r hr (Or.inr ⟨rfl, rfl⟩) hw0
      rw [h]
      simp only [paths, List.mem_cons, List.mem_append]
      constructor
      · rintro q (h | h | h)
        · exact Or.inl h
        · exact Or.inr (Or.inl h)
        · exact Or.inr (Or.inr (b1 q h))
      · rintro q (h | h | h)
        · exact Or.inl (Or.inl h)
        · exact Or.inl (Or.inr (Or.inl h))
        · rcases b2 q h with h | h | ⟨m, hm, e⟩
          · exact Or.inl (Or.inr (Or.inr h))
          · exact Or.inr (Or.inl h)
          · exact Or.inr (Or.inr ⟨m, Or.inr (Or.inr hm), e⟩)
    · have hm : P ++ n = meet (P ++ fs) (P ++ f.str) := by
        rw [hr, hs]
        exact (meet_split (c := '1') (d := '0') (by decide) ⟨r, by simp⟩ ⟨s, by simp⟩).symm
      have hPn : P ++ n ++ '0' :: s = P ++ f.str := by rw [hs]; simp
      have hPf : P ++ n ++ '1' :: r = P ++ fs := by rw [hr]; simp
      rw [h]
      simp only [paths, List.mem_cons, List.mem_append, newFilter_str, hPn, hPf, List.not_mem_nil, or_false]
      constructor
      · intro q hq; exact Or.inr (Or.inr hq)
      · rintro q (h | h | h)
        · exact Or.inr (Or.inr ⟨_, Or.inl rfl, h.trans hm⟩)
        · exact Or.inr (Or.inl h)
        · exact Or.inl h
    · have hm : P ++ n = meet (P ++ fs) (P ++ f.str) := by
        rw [hr, hs]
        exact (meet_split (c := '0') (d := '1') (by decide) ⟨r, by simp⟩ ⟨s, by simp⟩).symm
      have hPn : P ++ n ++ '1' :: s = P ++ f.str := by rw [hs]; simp
      have hPf : P ++ n ++ '0' :: r = P ++ fs := by rw [hr]; simp
      rw [h]
      simp only [paths, List.mem_cons, List.mem_append, newFilter_str, hPn, hPf, List.not_mem_nil, or_false]
      constructor
      · intro q hq; exact Or.inr (Or.inl hq)
      · rintro q (h | h | h)
        · exact Or.inr (Or.inr ⟨_, Or.inl rfl, h.trans hm⟩)
        · exact Or.inl h
        · exact Or.inr (Or.inl h)
    · exfalso
      rcases hsafe with hs | hs
      · have hp := paths_prefix _ P _ hs
        simp only [str] at hp
        exact h2 (prefix_antisymm h1 ((List.prefix_append_right_inj P).mp hp))
      · exact hs (P ++ f.str) (by simp [paths]) ((List.prefix_append_right_inj P).mpr h1)
termination_by t => t

theorem shows_add {t : PNode} {v : TrieView} (h : Shows t v) (k u : Str) (hk : IsBitStr k) (hu : u ≠ [])
    (hi : ¬ InsideEdge v.nodes k) : Shows (t.add k u) (v.step (.add k u)) := by
  obtain ⟨h1, h2, h3, h4⟩ := h
  have hsafe : SafeAt [] t k := by
    by_cases hin : k ∈ v.nodes
    · exact Or.inl (by simpa using (h4 k).mpr hin)
    · right
      intro q hq hp
      exact hi ⟨hin, q, (h4 q).mp hq, by simpa using hp⟩
  obtain ⟨a1, a2, -⟩ := add_spec t [] k u h1 h2 hk hu hsafe
  obtain ⟨b1, b2⟩ := add_paths t [] k u h1 h2 hk hsafe
  refine ⟨add_ne_nil t k u h1, a1, ?_, ?_⟩
  · intro k' w
    rw [a2]
    simp only [List.nil_append, TrieView.step]
    by_cases hkk : k' = k
    · simp [hkk, eq_comm]
    · simp [hkk, h3]
  · intro q
    simp only [TrieView.step, List.mem_append, List.mem_cons, List.mem_map]
    have hnew : k ∈ paths [] (t.add k u) := by
      have := content_paths _ [] (k, u) ((a2 k u).mpr (Or.inl ⟨by simp, rfl⟩))
      exact this
    constructor
    · intro hq
      rcases b2 q hq with h | h | ⟨m, hm, e⟩
      · exact Or.inl (Or.inr ((h4 q).mp h))
      · exact Or.inl (Or.inl (by simpa using h))
      · exact Or.inr ⟨m, (h4 m).mp hm, by simpa using e.symm⟩
    · rintro ((rfl | h) | ⟨m, hm, rfl⟩)
      · exact hnew
      · exact b1 q ((h4 q).mpr h)
      · exact paths_closed _ [] a1 k hnew m (b1 m ((h4 m).mpr hm))

/-! ### deletions -/

/-- the node `q` has both branches -/
def Branches (N : List Str) (q : Str) : Prop := (∃ m ∈ N, q ++ ['1'] <+: m) ∧ ∃ m ∈ N, q ++ ['0'] <+: m

theorem branch_iff {P : Str} {t : PNode} {c : Char} (ht : t ≠ .nil → t.str.head? = some c) :
    (∃ m ∈ paths P t, P ++ [c] <+: m) ↔ t ≠ .nil := by
  constructor
  · rintro ⟨m, hm, -⟩ rfl
    simp [paths] at hm
  · intro h
    cases t with
    | nil => exact absurd rfl h
    | node u f o z =>
      have : P ++ f.str ∈ paths P (.node u f o z) := by simp [paths]
      exact ⟨_, this, child_prefix ht this⟩

theorem isLeafWith_paths {t : PNode} {P s : Str} (ht : t ≠ .nil) :
    t.isLeafWith s = true ↔ paths P t = [P ++ s] := by
  cases t with
  | nil => exact absurd rfl ht
  | node u f o z =>
    rw [isLeafWith_iff]
    constructor
    · rintro ⟨u', f', h, rfl⟩
      cases h
      simp [paths]
    · intro h
      have ho : o = .nil := by
        cases o with
        | nil => rfl
        | node => simp [paths] at h
      have hz : z = .nil := by
        cases z with
        | nil => rfl
        | node => simp [paths] at h
      subst ho; subst hz
      simp [paths] at h
      exact ⟨u, f, rfl, h⟩

theorem delete_paths : ∀ (t : PNode) (P fs : Str), t ≠ .nil → WF P t → IsBitStr fs →
    t.isLeafWith fs = false →
    ∀ q, q ∈ paths P (t.delete fs) ↔ q ∈ paths P t ∧ (q = P ++ fs → Branches (paths P t) q)
  | .nil, _, _, h, _, _, _ => absurd rfl h
  | .node u f one zero, P, fs, _, ⟨hbit, hf, hw1, hw0, hh1, hh0⟩, hfs, hleaf => by
    have hsize : f.size = f.str.length := by rw [hf]; rfl
    have hoff : f.offset = P.length := by rw [hf]; rfl
    -- the other nodes are longer than this one
    have deep : ∀ (t : PNode) (c : Char), (t ≠ .nil → t.str.head? = some c) →
        ∀ q ∈ paths (P ++ f.str) t, q ≠ P ++ f.str := by
      rintro t c ht q hq rfl
      have := (child_prefix ht hq).length_le
      simp at this
      omega
    have bro : ∀ q, q = P ++ f.str → (Branches (paths P (.node u f one zero)) q ↔ one ≠ .nil ∧ zero ≠ .nil) := by
      rintro q rfl
      have other : ∀ (t : PNode) (c d : Char), c ≠ d → (t ≠ .nil → t.str.head? = some c) →
          ∀ m ∈ paths (P ++ f.str) t, ¬ P ++ f.str ++ [d] <+: m := by
        intro t c d hcd ht m hm hp
        exact hcd (by
          have h1 := child_prefix ht hm
          obtain ⟨a, rfl⟩ := h1
          obtain ⟨b, hb⟩ := hp
          simp at hb
          exact hb.1.symm)
      have own : ∀ c, ¬ P ++ f.str ++ [c] <+: P ++ f.str := by
        intro c h
        have := h.length_le
        simp at this
        omega
      unfold Branches
      rw [← branch_iff (P := P ++ f.str) hh1, ← branch_iff (P := P ++ f.str) hh0]
      constructor
      · rintro ⟨⟨m, hm, hp⟩, m', hm', hp'⟩
        simp only [paths, List.mem_cons, List.mem_append] at hm hm'
        constructor
        · rcases hm with rfl | hm | hm
          · exact absurd hp (own _)
          · exact ⟨m, hm, hp⟩
          · exact absurd hp (other zero '0' '1' (by decide) hh0 m hm)
        · rcases hm' with rfl | hm | hm
          · exact absurd hp' (own _)
          · exact absurd hp' (other one '1' '0' (by decide) hh1 m' hm)
          · exact ⟨m', hm, hp'⟩
      · rintro ⟨⟨m, hm, hp⟩, m', hm', hp'⟩
        exact ⟨⟨m, by simp [paths, hm], hp⟩, m', by simp [paths, hm'], hp'⟩
    by_cases hpre : f.str <+: fs
    · have hhp : ¬ ¬ hasPrefix fs f.str = true := fun h => h ((hasPrefix_iff fs f.str).mpr hpre)
      by_cases heq : fs = f.str
      · subst heq
        have merge : ∀ u' f' o' z',
            paths P (.node u' (newFilter (f.str ++ f'.str) f.offset) o' z') =
              paths (P ++ f.str) (.node u' f' o' z') := by
          intro u' f' o' z'
          simp only [paths, newFilter_str, List.append_assoc]
        intro q
        cases ho : one with
        | nil =>
          cases hz : zero with
          | nil =>
            subst ho; subst hz
            simp [isLeafWith] at hleaf
          | node u0 f0 o0 z0 =>
            have hdel : (node u f .nil (.node u0 f0 o0 z0)).delete f.str =
                .node u0 (newFilter (f.str ++ f0.str) f.offset) o0 z0 := by
              unfold delete; simp only [hhp, if_false, if_true]
            rw [hdel, merge, ← hz]
            subst ho
            constructor
            · intro hq
              refine ⟨by simp [paths, hq], fun h => absurd h (deep zero '0' hh0 q hq)⟩
            · rintro ⟨hq, h⟩
              by_cases e : q = P ++ f.str
              · exact absurd ((bro q e).mp (h e)).1 (by simp)
              · simpa [paths, e] using hq
        | node u1 f1 o1 z1 =>
          cases hz : zero with
          | nil =>
            have hdel : (node u f (.node u1 f1 o1 z1) .nil).delete f.str =
                .node u1 (newFilter (f.str ++ f1.str) f.offset) o1 z1 := by
              unfold delete; simp only [hhp, if_false, if_true]
            rw [hdel, merge, ← ho]
            subst hz
            constructor
            · intro hq
              refine ⟨by simp [paths, hq], fun h => absurd h (deep one '1' hh1 q hq)⟩
            · rintro ⟨hq, h⟩
              by_cases e : q = P ++ f.str
              · exact absurd ((bro q e).mp (h e)).2 (by simp)
              · simpa [paths, e] using hq
          | node u0 f0 o0 z0 =>
            have hdel : (node u f (.node u1 f1 o1 z1) (.node u0 f0 o0 z0)).delete f.str =
                .node [] f (.node u1 f1 o1 z1) (.node u0 f0 o0 z0) := by
              unfold delete; simp only [hhp, if_false, if_true]
            rw [hdel, ← ho, ← hz]
            constructor
            · intro hq
              exact ⟨by simpa [paths] using hq, fun h => (bro q h).mpr ⟨by simp [ho], by simp [hz]⟩⟩
            · rintro ⟨hq, -⟩
              simpa [paths] using hq
      · obtain ⟨c, r, hcr⟩ := proper_prefix_cases hpre heq
        subst hcr
        have hc : c = '0' ∨ c = '1' := hfs c (by simp)
        have hgt : (f.str ++ c :: r).length > f.size := by rw [hsize]; simp
        have hdrop : (f.str ++ c :: r).drop f.size = c :: r := by rw [hsize]; simp
        have hrest : IsBitStr (c :: r) := hfs.of_append_right
        have hfull : P ++ (f.str ++ c :: r) = (P ++ f.str) ++ c :: r := by simp
        have hself : P ++ f.str ≠ P ++ (f.str ++ c :: r) := by
          intro h; have := congrArg List.length h; simp at this
        -- branches of a node below are in the same subtree
        have brt : ∀ (t t' : PNode) (d d' : Char), d ≠ d' → (t ≠ .nil → t.str.head? = some d) →
            (t' ≠ .nil → t'.str.head? = some d') →
            (∀ m, m ∈ paths P (.node u f one zero) ↔ m = P ++ f.str ∨ m ∈ paths (P ++ f.str) t ∨
              m ∈ paths (P ++ f.str) t') → ∀ q ∈ paths (P ++ f.str) t,
            (Branches (paths P (.node u f one zero)) q ↔ Branches (paths (P ++ f.str) t) q) := by
          intro t t' d d' hdd ht ht' hm q hq
          have key : ∀ e : Char, (∃ m ∈ paths P (.node u f one zero), q ++ [e] <+: m) ↔
              ∃ m ∈ paths (P ++ f.str) t, q ++ [e] <+: m := by
            intro e
            constructor
            · rintro ⟨m, hmm, hp⟩
              rcases (hm m).mp hmm with rfl | h | h
              · have h1 := (child_prefix ht hq).length_le
                have h2 := hp.length_le
                simp at h1 h2
                omega
              · exact ⟨m, h, hp⟩
              · exfalso
                have h1 := (child_prefix ht hq).trans ((List.prefix_append q [e]).trans hp)
                have h2 := child_prefix ht' h
                obtain ⟨a, rfl⟩ := h1
                obtain ⟨b, hb⟩ := h2
                simp at hb
                exact hdd hb.1.symm
            · rintro ⟨m, hmm, hp⟩
              exact ⟨m, (hm m).mpr (Or.inr (Or.inl hmm)), hp⟩
          unfold Branches
          rw [key, key]
        have side : ∀ t, (t = one ∨ t = zero) → t ≠ .nil → WF (P ++ f.str) t → ∀ q,
            q ∈ paths (P ++ f.str) (if t.isLeafWith (c :: r) = true then PNode.nil else t.delete (c :: r)) ↔
              q ∈ paths (P ++ f.str) t ∧
                (q = P ++ (f.str ++ c :: r) → Branches (paths (P ++ f.str) t) q) := by
          intro t htd htn hwt q
          cases hl : t.isLeafWith (c :: r) with
          | true =>
            have hp := (isLeafWith_paths (P := P ++ f.str) htn).mp hl
            simp only [if_true, hp]
            simp only [paths, List.not_mem_nil, List.mem_singleton, false_iff]
            rintro ⟨h, h2⟩
            obtain ⟨⟨m, hm, hpm⟩, -⟩ := h2 (by rw [h, hfull])
            rw [List.mem_singleton] at hm
            rw [hm, h] at hpm
            have := hpm.length_le
            simp at this
            omega
          | false =>
            simp only [Bool.false_eq_true, if_false]
            have ih : q ∈ paths (P ++ f.str) (t.delete (c :: r)) ↔ q ∈ paths (P ++ f.str) t ∧
                (q = (P ++ f.str) ++ c :: r → Branches (paths (P ++ f.str) t) q) := by
              rcases htd with h | h
              · subst h; exact delete_paths t (P ++ f.str) (c :: r) htn hwt hrest hl q
              · subst h; exact delete_paths t (P ++ f.str) (c :: r) htn hwt hrest hl q
            rw [hfull]
            exact ih
        intro q
        rcases hc with rfl | rfl
        · have hb := brt zero one '0' '1' (by decide) hh0 hh1 (by
            intro m; simp only [paths, List.mem_cons, List.mem_append]
            exact ⟨fun h => by rcases h with h | h | h <;> simp [h], fun h => by rcases h with h | h | h <;> simp [h]⟩)
          have other : q ∈ paths (P ++ f.str) one → q ≠ P ++ (f.str ++ '0' :: r) := by
            rintro h rfl
            rw [hfull] at h
            exact not_mem_paths_other (by decide) hh1 _ h List.prefix_rfl
          by_cases hzn : zero = .nil
          · have hdel : (node u f one zero).delete (f.str ++ '0' :: r) = node u f one zero := by
              subst hzn
              unfold delete
              simp only [hhp, if_false, heq, hgt, if_true, hdrop]
            rw [hdel]
            refine ⟨fun hq => ⟨hq, fun h => ?_⟩, fun h => h.1⟩
            simp only [hzn, paths, List.mem_cons, List.append_nil] at hq
            rcases hq with hq | hq
            · exact absurd (hq ▸ h) hself
            · exact absurd h (other hq)
          · have hdel : (node u f one zero).delete (f.str ++ '0' :: r) =
                node u f one (if zero.isLeafWith ('0' :: r) = true then PNode.nil else zero.delete ('0' :: r)) := by
              conv => lhs; unfold delete
              simp only [hhp, if_false, heq, hgt, if_true, hdrop]
              cases zero with
              | nil => exact absurd rfl hzn
              | node => split <;> rfl
            rw [hdel, paths, List.mem_cons, List.mem_append, side zero (Or.inr rfl) hzn hw0 q]
            constructor
            · rintro (h | h | ⟨h, h2⟩)
              · exact ⟨by simp [paths, h], fun h' => absurd (h ▸ h') hself⟩
              · exact ⟨by simp [paths, h], fun h' => absurd h' (other h)⟩
              · exact ⟨by simp [paths, h], fun h' => (hb q h).mpr (h2 h')⟩
            · rintro ⟨h, h2⟩
              simp only [paths, List.mem_cons, List.mem_append] at h
              rcases h with h | h | h
              · exact Or.inl h
              · exact Or.inr (Or.inl h)
              · exact Or.inr (Or.inr ⟨h, fun h' => (hb q h).mp (h2 h')⟩)
        · have hb := brt one zero '1' '0' (by decide) hh1 hh0 (by
            intro m; simp only [paths, List.mem_cons, List.mem_append])
          have other : q ∈ paths (P ++ f.str) zero → q ≠ P ++ (f.str ++ '1' :: r) := by
            rintro h rfl
            rw [hfull] at h
            exact not_mem_paths_other (by decide) hh0 _ h List.prefix_rfl
          by_cases hon : one = .nil
          · have hdel : (node u f one zero).delete (f.str ++ '1' :: r) = node u f one zero := by
              subst hon
              unfold delete
              simp only [hhp, if_false, heq, hgt, if_true, hdrop]
            rw [hdel]
            refine ⟨fun hq => ⟨hq, fun h => ?_⟩, fun h => h.1⟩
            simp only [hon, paths, List.mem_cons, List.nil_append] at hq
            rcases hq with hq | hq
            · exact absurd (hq ▸ h) hself
            · exact absurd h (other hq)
          · have hdel : (node u f one zero).delete (f.str ++ '1' :: r) =
                node u f (if one.isLeafWith ('1' :: r) = true then PNode.nil else one.delete ('1' :: r)) zero := by
              conv => lhs; unfold delete
              simp only [hhp, if_false, heq, hgt, if_true, hdrop]
              cases one with
              | nil => exact absurd rfl hon
              | node => split <;> rfl
            rw [hdel, paths, List.mem_cons, List.mem_append, side one (Or.inl rfl) hon hw1 q]
            constructor
            · rintro (h | ⟨h, h2⟩ | h)
              · exact ⟨by simp [paths, h], fun h' => absurd (h ▸ h') hself⟩
              · exact ⟨by simp [paths, h], fun h' => (hb q h).mpr (h2 h')⟩
              · exact ⟨by simp [paths, h], fun h' => absurd h' (other h)⟩
            · rintro ⟨h, h2⟩
              simp only [paths, List.mem_cons, List.mem_append] at h
              rcases h with h | h | h
              · exact Or.inl h
              · exact Or.inr (Or.inl ⟨h, fun h' => (hb q h).mp (h2 h')⟩)
              · exact Or.inr (Or.inr h)
    · have hhp : ¬ hasPrefix fs f.str = true := fun h => hpre ((hasPrefix_iff fs f.str).mp h)
      have hdel : (node u f one zero).delete fs = node u f one zero := by
        unfold delete; simp only [hhp, not_false_eq_true, if_true, Bool.false_eq_true]
      rw [hdel]
      intro q
      refine ⟨fun hq => ⟨hq, ?_⟩, fun h => h.1⟩
      rintro rfl
      have hp := paths_prefix _ P _ hq
      simp only [str] at hp
      exact absurd ((List.prefix_append_right_inj P).mp hp) hpre
termination_by t => t

theorem single_iff {t : PNode} {v : TrieView} (h : Shows t v) (k : Str) :
    (∀ n ∈ v.nodes, n = k) ↔ t.isLeafWith k = true := by
  obtain ⟨h1, h2, h3, h4⟩ := h
  rw [isLeafWith_paths (P := []) h1]
  constructor
  · intro h
    have h : ∀ n ∈ paths [] t, n = k := fun n hn => h n ((h4 n).mp hn)
    cases t with
    | nil => exact absurd rfl h1
    | node u f o z =>
      obtain ⟨_, _, _, _, hh1, hh0⟩ := h2
      have hk := h f.str (by simp [paths])
      have none : ∀ (t : PNode) (c : Char), (t ≠ .nil → t.str.head? = some c) →
          (∀ q ∈ paths ([] ++ f.str) t, q = k) → paths ([] ++ f.str) t = [] := by
        intro t c ht hq
        cases t with
        | nil => rfl
        | node u' f' o' z' =>
          exfalso
          have hm : [] ++ f.str ++ f'.str ∈ paths ([] ++ f.str) (.node u' f' o' z') := by simp [paths]
          have e := hq _ hm
          have := (child_prefix ht hm).length_le
          rw [e, ← hk] at this
          simp at this
          omega
      have n1 := none o '1' hh1 (fun q hq => h q (List.mem_cons_of_mem _ (List.mem_append_left _ hq)))
      have n0 := none z '0' hh0 (fun q hq => h q (List.mem_cons_of_mem _ (List.mem_append_right _ hq)))
      rw [paths, n1, n0, List.nil_append, hk]
      rfl
  · intro h n hn
    have := (h4 n).mpr hn
    rw [h] at this
    simpa using this

theorem shows_delete {t : PNode} {v : TrieView} (h : Shows t v) (k : Str) (hk : IsBitStr k) :
    Shows (t.delete k) (v.step (.delete k)) := by
  have hs := single_iff h k
  obtain ⟨h1, h2, h3, h4⟩ := id h
  unfold TrieView.step
  dsimp only
  by_cases hall : ∀ n ∈ v.nodes, n = k
  · rw [if_pos hall]
    obtain ⟨u, f, rfl, hf⟩ := (isLeafWith_iff _ _).mp (hs.mp hall)
    have hd : (node u f .nil .nil).delete k = node u f .nil .nil := by
      subst hf
      unfold delete
      simp [(hasPrefix_iff f.str f.str).mpr List.prefix_rfl]
    rw [hd]
    exact h
  · rw [if_neg hall]
    have hl : t.isLeafWith k = false := by
      cases e : t.isLeafWith k with
      | false => rfl
      | true => exact absurd (hs.mpr e) hall
    obtain ⟨a1, a2, -⟩ := delete_spec t [] k h1 h2 hk hl
    refine ⟨delete_ne_nil t k h1, a1, ?_, ?_⟩
    · intro k' w
      rw [a2, h3, List.nil_append]
      by_cases hkk : k' = k <;> simp [hkk]
    · intro q
      rw [delete_paths t [] k h1 h2 hk hl, List.mem_filter, decide_eq_true_iff, h4]
      have : Branches (paths [] t) q ↔
          ((∃ m ∈ v.nodes, q ++ ['1'] <+: m) ∧ ∃ m ∈ v.nodes, q ++ ['0'] <+: m) := by
        unfold Branches
        simp only [h4]
      rw [this, List.nil_append]
      constructor
      · rintro ⟨hq, h⟩
        refine ⟨hq, ?_⟩
        by_cases e : q = k
        · right; subst e; exact h rfl
        · exact Or.inl e
      · rintro ⟨hq, h⟩
        refine ⟨hq, fun e => ?_⟩
        rcases h with h | h
        · exact absurd e h
        · subst e; exact h

end Gosstrak
