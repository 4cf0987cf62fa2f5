import Verif.Proofs.Patricia

/-! `add` and `delete` on well-formed tries. -/
namespace Gosstrak

open PNode

/-- the safe case of `add`, relative to the subtree: `fs` is a node or no node extends it -/
def SafeAt (P : Str) (t : PNode) (fs : Str) : Prop :=
  P ++ fs ∈ paths P t ∨ ∀ q ∈ paths P t, ¬ P ++ fs <+: q

theorem hasPrefix_iff (s p : Str) : hasPrefix s p = true ↔ p <+: s := by
  unfold hasPrefix; exact List.isPrefixOf_iff_prefix

/-- nothing below a child starting with `c` has a key starting with another character -/
theorem not_mem_other {P : Str} {t : PNode} {c d : Char} {r u : Str} (hcd : c ≠ d)
    (ht : t ≠ .nil → t.str.head? = some c) : (P ++ d :: r, u) ∉ content P t := by
  intro h
  have htn : t ≠ .nil := by rintro rfl; simp [content] at h
  have hp := content_prefix t P _ h
  have h1 := next_of_prefix (ht htn) hp
  simp at h1
  exact hcd h1.symm

theorem not_mem_paths_other {P : Str} {t : PNode} {c d : Char} {r : Str} (hcd : c ≠ d)
    (ht : t ≠ .nil → t.str.head? = some c) (q : Str) (h : q ∈ paths P t) : ¬ P ++ d :: r <+: q := by
  intro hq
  have htn : t ≠ .nil := by rintro rfl; simp [paths] at h
  have hp := paths_prefix t P _ h
  have h1 := next_of_prefix (ht htn) hp
  have h2 := next_of_prefix (Q := P) (s := d :: r) rfl hq
  rw [h1] at h2
  exact hcd (Option.some.inj h2)

theorem not_mem_self {P : Str} {t : PNode} {c : Char} {u : Str}
    (ht : t ≠ .nil → t.str.head? = some c) : (P, u) ∉ content P t := by
  intro h
  have htn : t ≠ .nil := by rintro rfl; simp [content] at h
  have hp := (content_prefix t P _ h).length_le
  have h1 := ht htn
  cases hs : t.str with
  | nil => rw [hs] at h1; simp at h1
  | cons a l => rw [hs] at hp; simp at hp; omega

/-- `add` on a non-nil node gives a non-nil node -/
theorem add_ne_nil : ∀ (t : PNode) (fs uri : Str), t ≠ .nil → t.add fs uri ≠ .nil
  | .nil, _, _, h => absurd rfl h
  | .node u f one zero, fs, uri, _ => by
    unfold add
    dsimp only
    repeat' split
    all_goals simp

/-- a node reached with a string starting with `c` keeps that first character -/
theorem add_head {t : PNode} {fs uri : Str} {c : Char} (ht : t ≠ .nil)
    (h1 : t.str.head? = some c) (h2 : fs.head? = some c) : (t.add fs uri).str.head? = some c := by
  cases t with
  | nil => exact absurd rfl ht
  | node u f one zero =>
    have hl : (lcp [fs, f.str]).head? = some c := by
      obtain ⟨-, -, l3⟩ := lcp2_spec fs f.str
      have hc : [c] <+: lcp [fs, f.str] := by
        apply l3
        · cases fs with
          | nil => simp at h2
          | cons d p => simp at h2; subst h2; simp
        · simp only [str] at h1
          cases hs : f.str with
          | nil => rw [hs] at h1; simp at h1
          | cons d p => rw [hs] at h1; simp at h1; subst h1; simp
      obtain ⟨r, hr⟩ := hc
      rw [← hr]; rfl
    unfold add
    dsimp only
    repeat' split
    all_goals first | exact h1 | exact hl

theorem proper_prefix_cases {a b : Str} (h : a <+: b) (hne : b ≠ a) :
    ∃ c r, b = a ++ c :: r := by
  obtain ⟨r, rfl⟩ := h
  cases r with
  | nil => simp at hne
  | cons c r => exact ⟨c, r, rfl⟩

theorem add_spec : ∀ (t : PNode) (P fs uri : Str), t ≠ .nil → WF P t → IsBitStr fs → uri ≠ [] →
    SafeAt P t fs →
    WF P (t.add fs uri) ∧
    (∀ k v, (k, v) ∈ content P (t.add fs uri) ↔
      (k = P ++ fs ∧ v = uri) ∨ (k ≠ P ++ fs ∧ (k, v) ∈ content P t)) ∧
    (∀ q ∈ paths P (t.add fs uri), q <+: P ++ fs ∨ q ∈ paths P t)
  | .nil, _, _, _, h, _, _, _, _ => absurd rfl h
  | .node u f one zero, P, fs, uri, _, ⟨hbit, hf, hw1, hw0, hh1, hh0⟩, hfs, huri, hsafe => by
    have hsize : f.size = f.str.length := by rw [hf]; rfl
    have hoff : f.offset = P.length := by rw [hf]; rfl
    have hlen : (P ++ f.str).length = f.offset + f.size := by
      rw [hsize, hoff, List.length_append]
    have hlen' : P.length + f.str.length = f.offset + f.size := by rw [hsize, hoff]
    by_cases hpre : f.str <+: fs
    · have hhp := (hasPrefix_iff fs f.str).mpr hpre
      by_cases heq : fs = f.str
      · -- the identical filter
        have hadd : (node u f one zero).add fs uri = node uri f one zero := by
          unfold add
          rw [if_pos hhp, if_pos heq]
          by_cases h : u = uri
          · simp [h]
          · simp [h]
        rw [hadd]
        refine ⟨⟨hbit, hf, hw1, hw0, hh1, hh0⟩, ?_, ?_⟩
        · intro k v
          simp only [content, huri, if_false, heq, List.mem_append]
          constructor
          · rintro (h | h | h)
            · simp at h; exact Or.inl h
            · refine Or.inr ⟨?_, Or.inr (Or.inl h)⟩
              rintro rfl; exact not_mem_self hh1 h
            · refine Or.inr ⟨?_, Or.inr (Or.inr h)⟩
              rintro rfl; exact not_mem_self hh0 h
          · rintro (⟨rfl, rfl⟩ | ⟨hne, h | h⟩)
            · left; simp
            · split at h
              · simp at h
              · simp at h; exact absurd h.1 hne
            · exact Or.inr h
        · intro q hq
          right
          simpa [paths] using hq
      · obtain ⟨c, r, hcr⟩ := proper_prefix_cases hpre heq
        subst hcr
        have hc : c = '0' ∨ c = '1' := hfs c (by simp)
        have hgt : (f.str ++ c :: r).length > f.size := by rw [hsize]; simp
        have hdrop : (f.str ++ c :: r).drop f.size = c :: r := by rw [hsize]; simp
        have hrest : IsBitStr (c :: r) := hfs.of_append_right
        have hfull : P ++ (f.str ++ c :: r) = (P ++ f.str) ++ c :: r := by simp
        -- safety for the subtrees
        have hsub : ∀ t d, (t = one ∧ d = '1' ∨ t = zero ∧ d = '0') → c = d →
            SafeAt (P ++ f.str) t (c :: r) := by
          rintro t d htd rfl
          rcases hsafe with h | h
          · simp only [paths, List.mem_cons, List.mem_append] at h
            rw [hfull] at h
            rcases h with h | h | h
            · have := congrArg List.length h; simp at this
            · rcases htd with ⟨rfl, rfl⟩ | ⟨rfl, rfl⟩
              · exact Or.inl h
              · exact absurd List.prefix_rfl (not_mem_paths_other (by decide) hh1 _ h)
            · rcases htd with ⟨rfl, rfl⟩ | ⟨rfl, rfl⟩
              · exact absurd List.prefix_rfl (not_mem_paths_other (by decide) hh0 _ h)
              · exact Or.inl h
          · right
            intro q hq
            rw [← hfull]
            apply h q
            simp only [paths, List.mem_cons, List.mem_append]
            rcases htd with ⟨rfl, -⟩ | ⟨rfl, -⟩
            · exact Or.inr (Or.inl hq)
            · exact Or.inr (Or.inr hq)
        -- a new leaf below this node
        have leafwf : WF (P ++ f.str) (.node uri (newFilter (c :: r) (f.offset + f.size)) .nil .nil) :=
          ⟨hrest, by rw [newFilter_str, ← hlen], trivial, trivial, by simp, by simp⟩
        have leafcon : ∀ k v, (k, v) ∈ content (P ++ f.str)
            (.node uri (newFilter (c :: r) (f.offset + f.size)) .nil .nil) ↔
            k = P ++ (f.str ++ c :: r) ∧ v = uri := by
          intro k v
          simp [content, huri, newFilter_str]
        have leafpath : ∀ q, q ∈ paths (P ++ f.str)
            (.node uri (newFilter (c :: r) (f.offset + f.size)) .nil .nil) ↔
            q = P ++ (f.str ++ c :: r) := by
          intro q; simp [paths, newFilter_str]
        -- the new subtree on the side of `c`
        have side : ∀ t d, (t = one ∧ d = '1' ∨ t = zero ∧ d = '0') → c = d →
            (t ≠ .nil → t.str.head? = some d) → WF (P ++ f.str) t →
            ∃ t', t' = (match t with
                | .nil => .node uri (newFilter (c :: r) (f.offset + f.size)) .nil .nil
                | t => t.add (c :: r) uri) ∧
              (t' ≠ .nil → t'.str.head? = some d) ∧ WF (P ++ f.str) t' ∧
              (∀ k v, (k, v) ∈ content (P ++ f.str) t' ↔
                (k = P ++ (f.str ++ c :: r) ∧ v = uri) ∨
                (k ≠ P ++ (f.str ++ c :: r) ∧ (k, v) ∈ content (P ++ f.str) t)) ∧
              (∀ q ∈ paths (P ++ f.str) t', q <+: P ++ (f.str ++ c :: r) ∨ q ∈ paths (P ++ f.str) t) := by
          intro t d htd hcd hht hwt
          refine ⟨_, rfl, ?_⟩
          cases t with
          | nil =>
            refine ⟨fun _ => by simp [str, newFilter_str, hcd], leafwf, ?_, ?_⟩
            · intro k v; rw [leafcon]; simp [content]
            · intro q hq; rw [leafpath] at hq; left; rw [hq]; exact List.prefix_rfl
          | node u' f' o' z' =>
            have ih : WF (P ++ f.str) ((node u' f' o' z').add (c :: r) uri) ∧
                (∀ k v, (k, v) ∈ content (P ++ f.str) ((node u' f' o' z').add (c :: r) uri) ↔
                  (k = (P ++ f.str) ++ c :: r ∧ v = uri) ∨
                  (k ≠ (P ++ f.str) ++ c :: r ∧ (k, v) ∈ content (P ++ f.str) (node u' f' o' z'))) ∧
                (∀ q ∈ paths (P ++ f.str) ((node u' f' o' z').add (c :: r) uri),
                  q <+: (P ++ f.str) ++ c :: r ∨ q ∈ paths (P ++ f.str) (node u' f' o' z')) := by
              rcases htd with ⟨h, hd⟩ | ⟨h, hd⟩
              · subst h
                exact add_spec (node u' f' o' z') (P ++ f.str) (c :: r) uri (by simp) hwt hrest huri
                  (hsub _ d (Or.inl ⟨rfl, hd⟩) hcd)
              · subst h
                exact add_spec (node u' f' o' z') (P ++ f.str) (c :: r) uri (by simp) hwt hrest huri
                  (hsub _ d (Or.inr ⟨rfl, hd⟩) hcd)
            obtain ⟨i1, i2, i3⟩ := ih
            refine ⟨fun _ => ?_, i1, ?_, ?_⟩
            · exact add_head (by simp) (hht (by simp)) (by rw [hcd]; rfl)
            · intro k v; rw [hfull]; exact i2 k v
            · intro q hq; rw [hfull]; exact i3 q hq
        rcases hc with rfl | rfl
        · obtain ⟨t', ht', s1, s2, s3, s4⟩ := side zero '0' (Or.inr ⟨rfl, rfl⟩) rfl hh0 hw0
          have hadd : (node u f one zero).add (f.str ++ '0' :: r) uri = node u f one t' := by
            unfold add
            simp only [hhp, if_true, heq, if_false, hgt, hdrop]
            rw [ht']
            cases zero <;> rfl
          rw [hadd]
          refine ⟨⟨hbit, hf, hw1, s2, hh1, s1⟩, ?_, ?_⟩
          · intro k v
            simp only [content, List.mem_append, s3]
            constructor
            · rintro (h | h | h | h)
              · refine Or.inr ⟨?_, Or.inl h⟩
                split at h
                · simp at h
                · simp at h; rintro rfl; exact absurd h.1 (by simp)
              · refine Or.inr ⟨?_, Or.inr (Or.inl h)⟩
                rintro rfl
                rw [hfull] at h
                exact not_mem_other (by decide) hh1 h
              · exact Or.inl h
              · exact Or.inr ⟨h.1, Or.inr (Or.inr h.2)⟩
            · rintro (h | ⟨hne, h | h | h⟩)
              · exact Or.inr (Or.inr (Or.inl h))
              · exact Or.inl h
              · exact Or.inr (Or.inl h)
              · exact Or.inr (Or.inr (Or.inr ⟨hne, h⟩))
          · intro q hq
            simp only [paths, List.mem_cons, List.mem_append] at hq ⊢
            rcases hq with h | h | h
            · exact Or.inr (Or.inl h)
            · exact Or.inr (Or.inr (Or.inl h))
            · rcases s4 q h with h | h
              · exact Or.inl h
              · exact Or.inr (Or.inr (Or.inr h))
        · obtain ⟨t', ht', s1, s2, s3, s4⟩ := side one '1' (Or.inl ⟨rfl, rfl⟩) rfl hh1 hw1
          have hadd : (node u f one zero).add (f.str ++ '1' :: r) uri = node u f t' zero := by
            unfold add
            simp only [hhp, if_true, heq, if_false, hgt, hdrop]
            rw [ht']
            cases one <;> rfl
          rw [hadd]
          refine ⟨⟨hbit, hf, s2, hw0, s1, hh0⟩, ?_, ?_⟩
          · intro k v
            simp only [content, List.mem_append, s3]
            constructor
            · rintro (h | (h | h) | h)
              · refine Or.inr ⟨?_, Or.inl h⟩
                split at h
                · simp at h
                · simp at h; rintro rfl; exact absurd h.1 (by simp)
              · exact Or.inl h
              · exact Or.inr ⟨h.1, Or.inr (Or.inl h.2)⟩
              · refine Or.inr ⟨?_, Or.inr (Or.inr h)⟩
                rintro rfl
                rw [hfull] at h
                exact not_mem_other (by decide) hh0 h
            · rintro (h | ⟨hne, h | h | h⟩)
              · exact Or.inr (Or.inl (Or.inl h))
              · exact Or.inl h
              · exact Or.inr (Or.inl (Or.inr ⟨hne, h⟩))
              · exact Or.inr (Or.inr h)
          · intro q hq
            simp only [paths, List.mem_cons, List.mem_append] at hq ⊢
            rcases hq with h | h | h
            · exact Or.inr (Or.inl h)
            · rcases s4 q h with h | h
              · exact Or.inl h
              · exact Or.inr (Or.inr (Or.inl h))
            · exact Or.inr (Or.inr (Or.inr h))
    · -- the node is split
      have hhp : ¬ hasPrefix fs f.str = true := fun h => hpre ((hasPrefix_iff fs f.str).mp h)
      obtain ⟨l1, l2, l3⟩ := lcp2_spec fs f.str
      generalize hncp : lcp [fs, f.str] = ncp at *
      have hnf : f.str ≠ ncp := by rintro h; rw [← h] at l1; exact hpre l1
      have hnfs : fs ≠ ncp := by
        rintro h
        rw [← h] at l2
        rcases hsafe with hs | hs
        · simp only [paths, List.mem_cons, List.mem_append] at hs
          rcases hs with hs | hs | hs
          · rw [List.append_cancel_left hs] at hpre; exact hpre List.prefix_rfl
          · have := ((List.prefix_append _ _).trans (paths_prefix one _ _ hs)).length_le
            have h2 := l2.length_le
            simp at this
            exact hpre ((l2.eq_of_length (by omega)) ▸ List.prefix_rfl)
          · have := ((List.prefix_append _ _).trans (paths_prefix zero _ _ hs)).length_le
            have h2 := l2.length_le
            simp at this
            exact hpre ((l2.eq_of_length (by omega)) ▸ List.prefix_rfl)
        · exact hs (P ++ f.str) (by simp [paths]) ((List.prefix_append_right_inj P).mpr l2)
      obtain ⟨c, r, hcr⟩ := proper_prefix_cases l1 hnfs
      obtain ⟨d, s, hds⟩ := proper_prefix_cases l2 hnf
      have hcd : c ≠ d := by
        rintro rfl
        have : ncp ++ [c] <+: ncp := by
          apply l3
          · rw [hcr]; exact ⟨r, by simp⟩
          · rw [hds]; exact ⟨s, by simp⟩
        have := this.length_le
        simp at this
        omega
      have hcb : c = '0' ∨ c = '1' := hfs c (by rw [hcr]; simp)
      have hdb : d = '0' ∨ d = '1' := hbit d (by rw [hds]; simp)
      have hge : ¬ ncp.length ≥ fs.length := by rw [hcr]; simp
      have hdropf : fs.drop ncp.length = c :: r := by rw [hcr]; simp
      have hdrops : f.str.drop ncp.length = d :: s := by rw [hds]; simp
      have ncpbit : IsBitStr ncp := hfs.of_prefix l1
      have hPn : P ++ ncp ++ d :: s = P ++ f.str := by rw [hds]; simp
      have hPf : P ++ ncp ++ c :: r = P ++ fs := by rw [hcr]; simp
      have hoff2 : f.offset + ncp.length = (P ++ ncp).length := by rw [hoff]; simp
      -- the two children
      have leafwf : WF (P ++ ncp) (.node uri (newFilter (c :: r) (f.offset + ncp.length)) .nil .nil) := by
        refine ⟨?_, by rw [newFilter_str, ← hoff2], trivial, trivial, by simp, by simp⟩
        rw [newFilter_str]
        rw [hcr] at hfs; exact hfs.of_append_right
      have newwf : WF (P ++ ncp) (.node u (newFilter (d :: s) (f.offset + ncp.length)) one zero) := by
        refine ⟨?_, by rw [newFilter_str, ← hoff2], ?_, ?_, hh1, hh0⟩
        · rw [newFilter_str]; rw [hds] at hbit; exact hbit.of_append_right
        · rw [newFilter_str, hPn]; exact hw1
        · rw [newFilter_str, hPn]; exact hw0
      have leafcon : ∀ k v, (k, v) ∈ content (P ++ ncp)
          (.node uri (newFilter (c :: r) (f.offset + ncp.length)) .nil .nil) ↔
          k = P ++ fs ∧ v = uri := by
        intro k v
        rw [← hPf]
        simp [content, huri, newFilter_str]
      have newcon : content (P ++ ncp)
          (.node u (newFilter (d :: s) (f.offset + ncp.length)) one zero) =
          content P (.node u f one zero) := by
        simp only [content, newFilter_str, hPn]
      have leafpath : ∀ q, q ∈ paths (P ++ ncp)
          (.node uri (newFilter (c :: r) (f.offset + ncp.length)) .nil .nil) ↔ q = P ++ fs := by
        intro q; rw [← hPf]; simp [paths, newFilter_str]
      have newpath : paths (P ++ ncp)
          (.node u (newFilter (d :: s) (f.offset + ncp.length)) one zero) =
          paths P (.node u f one zero) := by
        simp only [paths, newFilter_str, hPn]
      have notin : ∀ k v, (k, v) ∈ content P (.node u f one zero) → k ≠ P ++ fs := by
        rintro k v h rfl
        have hp := content_prefix _ P _ h
        simp only [str] at hp
        exact hpre ((List.prefix_append_right_inj P).mp hp)
      have ncppre : P ++ ncp <+: P ++ fs := (List.prefix_append_right_inj P).mpr l1
      rcases hcb with rfl | rfl
      · have hd1 : d = '1' := by rcases hdb with h | h; exact absurd h.symm hcd; exact h
        subst hd1
        have hadd : (node u f one zero).add fs uri = node [] (newFilter ncp f.offset)
            (.node u (newFilter ('1' :: s) (f.offset + ncp.length)) one zero)
            (.node uri (newFilter ('0' :: r) (f.offset + ncp.length)) .nil .nil) := by
          unfold add
          simp only [hhp, if_false, hncp, hge, hdropf, hdrops, Bool.false_eq_true]
        rw [hadd]
        refine ⟨⟨ncpbit, by rw [newFilter_str, hoff], newwf, leafwf, fun _ => rfl, fun _ => rfl⟩, ?_, ?_⟩
        · intro k v
          rw [content, newFilter_str, newcon]
          simp only [if_true, List.nil_append, List.mem_append, leafcon]
          constructor
          · rintro (h | h)
            · exact Or.inr ⟨notin k v h, h⟩
            · exact Or.inl h
          · rintro (h | ⟨-, h⟩)
            · exact Or.inr h
            · exact Or.inl h
        · intro q hq
          rw [paths, newFilter_str, newpath] at hq
          rcases List.mem_cons.mp hq with rfl | hq
          · exact Or.inl ncppre
          · rcases List.mem_append.mp hq with hq | hq
            · exact Or.inr hq
            · rw [leafpath] at hq; left; rw [hq]; exact List.prefix_rfl
      · have hd0 : d = '0' := by rcases hdb with h | h; exact h; exact absurd h.symm hcd
        subst hd0
        have hadd : (node u f one zero).add fs uri = node [] (newFilter ncp f.offset)
            (.node uri (newFilter ('1' :: r) (f.offset + ncp.length)) .nil .nil)
            (.node u (newFilter ('0' :: s) (f.offset + ncp.length)) one zero) := by
          unfold add
          simp only [hhp, if_false, hncp, hge, hdropf, hdrops, Bool.false_eq_true]
        rw [hadd]
        refine ⟨⟨ncpbit, by rw [newFilter_str, hoff], leafwf, newwf, fun _ => rfl, fun _ => rfl⟩, ?_, ?_⟩
        · intro k v
          rw [content, newFilter_str, newcon]
          simp only [if_true, List.nil_append, List.mem_append, leafcon]
          constructor
          · rintro (h | h)
            · exact Or.inl h
            · exact Or.inr ⟨notin k v h, h⟩
          · rintro (h | ⟨-, h⟩)
            · exact Or.inl h
            · exact Or.inr h
        · intro q hq
          rw [paths, newFilter_str, newpath] at hq
          rcases List.mem_cons.mp hq with rfl | hq
          · exact Or.inl ncppre
          · rcases List.mem_append.mp hq with hq | hq
            · rw [leafpath] at hq; left; rw [hq]; exact List.prefix_rfl
            · exact Or.inr hq
termination_by t => t

/-! ### delete -/

theorem isLeafWith_iff (t : PNode) (s : Str) :
    t.isLeafWith s = true ↔ ∃ u f, t = .node u f .nil .nil ∧ f.str = s := by
  unfold isLeafWith
  split
  · rename_i u f
    simp only [decide_eq_true_eq]
    constructor
    · exact fun h => ⟨u, f, rfl, h⟩
    · rintro ⟨u', f', h, hs⟩; cases h; exact hs
  · rename_i h
    simp only [Bool.false_eq_true, false_iff]
    rintro ⟨u, f, rfl, -⟩
    exact h u f rfl

theorem delete_ne_nil : ∀ (t : PNode) (fs : Str), t ≠ .nil → t.delete fs ≠ .nil
  | .nil, _, h => absurd rfl h
  | .node u f one zero, fs, _ => by
    unfold delete
    dsimp only
    repeat' split
    all_goals simp

theorem delete_head {t : PNode} {fs : Str} {c : Char} (h1 : t.str.head? = some c) :
    (t.delete fs).str.head? = some c := by
  cases t with
  | nil => simpa [delete] using h1
  | node u f one zero =>
    simp only [str] at h1
    have happ : ∀ s : Str, (f.str ++ s).head? = some c := by
      intro s; rw [List.head?_append, h1]; rfl
    unfold delete
    dsimp only
    repeat' split
    all_goals first | exact h1 | exact happ _

theorem delete_spec : ∀ (t : PNode) (P fs : Str), t ≠ .nil → WF P t → IsBitStr fs →
    t.isLeafWith fs = false →
    WF P (t.delete fs) ∧
    (∀ k v, (k, v) ∈ content P (t.delete fs) ↔ k ≠ P ++ fs ∧ (k, v) ∈ content P t) ∧
    (∀ q ∈ paths P (t.delete fs), q ∈ paths P t)
  | .nil, _, _, h, _, _, _ => absurd rfl h
  | .node u f one zero, P, fs, _, ⟨hbit, hf, hw1, hw0, hh1, hh0⟩, hfs, hleaf => by
    have hsize : f.size = f.str.length := by rw [hf]; rfl
    have hoff : f.offset = P.length := by rw [hf]; rfl
    by_cases hpre : f.str <+: fs
    · have hhp : ¬ ¬ hasPrefix fs f.str = true := fun h => h ((hasPrefix_iff fs f.str).mpr hpre)
      by_cases heq : fs = f.str
      · subst heq
        have nm1 : ∀ v, (P ++ f.str, v) ∉ content (P ++ f.str) one := fun v => not_mem_self hh1
        have nm0 : ∀ v, (P ++ f.str, v) ∉ content (P ++ f.str) zero := fun v => not_mem_self hh0
        -- content without this node's own entry
        have hcon : ∀ k v, (k ≠ P ++ f.str ∧ (k, v) ∈ content P (.node u f one zero)) ↔
            (k, v) ∈ content (P ++ f.str) one ∨ (k, v) ∈ content (P ++ f.str) zero := by
          intro k v
          simp only [content, List.mem_append]
          constructor
          · rintro ⟨hne, h | h⟩
            · split at h
              · simp at h
              · simp at h; exact absurd h.1 hne
            · exact h
          · intro h
            refine ⟨?_, Or.inr h⟩
            rintro rfl
            rcases h with h | h
            · exact nm1 v h
            · exact nm0 v h
        have merge : ∀ u' f' o' z', WF (P ++ f.str) (.node u' f' o' z') →
            WF P (.node u' (newFilter (f.str ++ f'.str) f.offset) o' z') ∧
            content P (.node u' (newFilter (f.str ++ f'.str) f.offset) o' z') =
              content (P ++ f.str) (.node u' f' o' z') ∧
            paths P (.node u' (newFilter (f.str ++ f'.str) f.offset) o' z') =
              paths (P ++ f.str) (.node u' f' o' z') := by
          rintro u' f' o' z' ⟨g1, g2, g3, g4, g5, g6⟩
          refine ⟨⟨hbit.append g1, by rw [newFilter_str, hoff], ?_, ?_, g5, g6⟩, ?_, ?_⟩
          · rw [newFilter_str, ← List.append_assoc]; exact g3
          · rw [newFilter_str, ← List.append_assoc]; exact g4
          · simp only [content, newFilter_str, List.append_assoc]
          · simp only [paths, newFilter_str, List.append_assoc]
        cases ho : one with
        | nil =>
          cases hz : zero with
          | nil =>
            subst ho; subst hz
            simp [isLeafWith] at hleaf
          | node u0 f0 o0 z0 =>
            have hdel : (node u f .nil (.node u0 f0 o0 z0)).delete f.str =
                .node u0 (newFilter (f.str ++ f0.str) f.offset) o0 z0 := by
              unfold delete; simp only [hhp, if_false, if_true]
            obtain ⟨m1, m2, m3⟩ := merge u0 f0 o0 z0 (hz ▸ hw0)
            rw [hdel]
            refine ⟨m1, ?_, ?_⟩
            · intro k v
              rw [m2, ← ho, ← hz, hcon, ho]
              simp [content]
            · intro q hq
              rw [m3] at hq
              rw [paths]; simp [hq]
        | node u1 f1 o1 z1 =>
          cases hz : zero with
          | nil =>
            have hdel : (node u f (.node u1 f1 o1 z1) .nil).delete f.str =
                .node u1 (newFilter (f.str ++ f1.str) f.offset) o1 z1 := by
              unfold delete; simp only [hhp, if_false, if_true]
            obtain ⟨m1, m2, m3⟩ := merge u1 f1 o1 z1 (ho ▸ hw1)
            rw [hdel]
            refine ⟨m1, ?_, ?_⟩
            · intro k v
              rw [m2, ← ho, ← hz, hcon, hz]
              simp [content]
            · intro q hq
              rw [m3] at hq
              rw [paths]; simp [hq]
          | node u0 f0 o0 z0 =>
            have hdel : (node u f (.node u1 f1 o1 z1) (.node u0 f0 o0 z0)).delete f.str =
                .node [] f (.node u1 f1 o1 z1) (.node u0 f0 o0 z0) := by
              unfold delete; simp only [hhp, if_false, if_true]
            rw [hdel, ← ho, ← hz]
            refine ⟨⟨hbit, hf, hw1, hw0, hh1, hh0⟩, ?_, ?_⟩
            · intro k v
              rw [hcon]
              simp [content]
            · intro q hq
              simpa [paths] using hq
      · obtain ⟨c, r, hcr⟩ := proper_prefix_cases hpre heq
        subst hcr
        have hc : c = '0' ∨ c = '1' := hfs c (by simp)
        have hgt : (f.str ++ c :: r).length > f.size := by rw [hsize]; simp
        have hdrop : (f.str ++ c :: r).drop f.size = c :: r := by rw [hsize]; simp
        have hrest : IsBitStr (c :: r) := hfs.of_append_right
        have hfull : P ++ (f.str ++ c :: r) = (P ++ f.str) ++ c :: r := by simp
        have hself : ∀ k v, (k, v) ∈ (if u = [] then [] else [(P ++ f.str, u)]) →
            k ≠ P ++ (f.str ++ c :: r) := by
          rintro k v h rfl
          split at h
          · simp at h
          · simp at h
        have side : ∀ t d, (t = one ∨ t = zero) → t ≠ .nil →
            (t ≠ .nil → t.str.head? = some d) → WF (P ++ f.str) t →
            ∃ t', t' = (if t.isLeafWith (c :: r) = true then PNode.nil else t.delete (c :: r)) ∧
              (t' ≠ .nil → t'.str.head? = some d) ∧ WF (P ++ f.str) t' ∧
              (∀ k v, (k, v) ∈ content (P ++ f.str) t' ↔
                k ≠ P ++ (f.str ++ c :: r) ∧ (k, v) ∈ content (P ++ f.str) t) ∧
              (∀ q ∈ paths (P ++ f.str) t', q ∈ paths (P ++ f.str) t) := by
          intro t d htd htn hht hwt
          refine ⟨_, rfl, ?_⟩
          cases hl : t.isLeafWith (c :: r) with
          | true =>
            obtain ⟨u', f', rfl, hs⟩ := (isLeafWith_iff _ _).mp hl
            simp only [if_true]
            refine ⟨by simp, trivial, ?_, by simp [paths]⟩
            intro k v
            simp only [content, List.append_nil, List.not_mem_nil, false_iff]
            rintro ⟨hne, h⟩
            split at h
            · simp at h
            · simp [hs] at h; exact hne (by rw [h.1])
          | false =>
            simp only [Bool.false_eq_true, if_false]
            have ih : WF (P ++ f.str) (t.delete (c :: r)) ∧
                (∀ k v, (k, v) ∈ content (P ++ f.str) (t.delete (c :: r)) ↔
                  k ≠ (P ++ f.str) ++ c :: r ∧ (k, v) ∈ content (P ++ f.str) t) ∧
                (∀ q ∈ paths (P ++ f.str) (t.delete (c :: r)), q ∈ paths (P ++ f.str) t) := by
              rcases htd with h | h
              · subst h; exact delete_spec t (P ++ f.str) (c :: r) htn hwt hrest hl
              · subst h; exact delete_spec t (P ++ f.str) (c :: r) htn hwt hrest hl
            obtain ⟨i1, i2, i3⟩ := ih
            refine ⟨fun _ => delete_head (hht htn), i1, ?_, i3⟩
            intro k v; rw [hfull]; exact i2 k v
        rcases hc with rfl | rfl
        · -- zero side
          have other : ∀ k v, (k, v) ∈ content (P ++ f.str) one → k ≠ P ++ (f.str ++ '0' :: r) := by
            rintro k v h rfl
            rw [hfull] at h
            exact not_mem_other (by decide) hh1 h
          by_cases hzn : zero = .nil
          · have hdel : (node u f one zero).delete (f.str ++ '0' :: r) = node u f one zero := by
              subst hzn
              unfold delete
              simp only [hhp, if_false, heq, hgt, if_true, hdrop]
            rw [hdel]
            refine ⟨⟨hbit, hf, hw1, hw0, hh1, hh0⟩, ?_, fun q hq => hq⟩
            intro k v
            subst hzn
            simp only [content, List.append_nil, List.mem_append]
            constructor
            · rintro (h | h)
              · exact ⟨hself k v h, Or.inl h⟩
              · exact ⟨other k v h, Or.inr h⟩
            · rintro ⟨-, h⟩; exact h
          · obtain ⟨t', ht', s1, s2, s3, s4⟩ := side zero '0' (Or.inr rfl) hzn hh0 hw0
            have hdel : (node u f one zero).delete (f.str ++ '0' :: r) = node u f one t' := by
              unfold delete
              simp only [hhp, if_false, heq, hgt, if_true, hdrop]
              rw [ht']
              cases zero with
              | nil => exact absurd rfl hzn
              | node => split <;> rfl
            rw [hdel]
            refine ⟨⟨hbit, hf, hw1, s2, hh1, s1⟩, ?_, ?_⟩
            · intro k v
              simp only [content, List.mem_append, s3]
              constructor
              · rintro (h | h | h)
                · exact ⟨hself k v h, Or.inl h⟩
                · exact ⟨other k v h, Or.inr (Or.inl h)⟩
                · exact ⟨h.1, Or.inr (Or.inr h.2)⟩
              · rintro ⟨hne, h | h | h⟩
                · exact Or.inl h
                · exact Or.inr (Or.inl h)
                · exact Or.inr (Or.inr ⟨hne, h⟩)
            · intro q hq
              simp only [paths, List.mem_cons, List.mem_append] at hq ⊢
              rcases hq with h | h | h
              · exact Or.inl h
              · exact Or.inr (Or.inl h)
              · exact Or.inr (Or.inr (s4 q h))
        · have other : ∀ k v, (k, v) ∈ content (P ++ f.str) zero → k ≠ P ++ (f.str ++ '1' :: r) := by
            rintro k v h rfl
            rw [hfull] at h
            exact not_mem_other (by decide) hh0 h
          by_cases hon : one = .nil
          · have hdel : (node u f one zero).delete (f.str ++ '1' :: r) = node u f one zero := by
              subst hon
              unfold delete
              simp only [hhp, if_false, heq, hgt, if_true, hdrop]
            rw [hdel]
            refine ⟨⟨hbit, hf, hw1, hw0, hh1, hh0⟩, ?_, fun q hq => hq⟩
            intro k v
            subst hon
            simp only [content, List.nil_append, List.mem_append]
            constructor
            · rintro (h | h)
              · exact ⟨hself k v h, Or.inl h⟩
              · exact ⟨other k v h, Or.inr h⟩
            · rintro ⟨-, h⟩; exact h
          · obtain ⟨t', ht', s1, s2, s3, s4⟩ := side one '1' (Or.inl rfl) hon hh1 hw1
            have hdel : (node u f one zero).delete (f.str ++ '1' :: r) = node u f t' zero := by
              unfold delete
              simp only [hhp, if_false, heq, hgt, if_true, hdrop]
              rw [ht']
              cases one with
              | nil => exact absurd rfl hon
              | node => split <;> rfl
            rw [hdel]
            refine ⟨⟨hbit, hf, s2, hw0, s1, hh0⟩, ?_, ?_⟩
            · intro k v
              simp only [content, List.mem_append, s3]
              constructor
              · rintro (h | h | h)
                · exact ⟨hself k v h, Or.inl h⟩
                · exact ⟨h.1, Or.inr (Or.inl h.2)⟩
                · exact ⟨other k v h, Or.inr (Or.inr h)⟩
              · rintro ⟨hne, h | h | h⟩
                · exact Or.inl h
                · exact Or.inr (Or.inl ⟨hne, h⟩)
                · exact Or.inr (Or.inr h)
            · intro q hq
              simp only [paths, List.mem_cons, List.mem_append] at hq ⊢
              rcases hq with h | h | h
              · exact Or.inl h
              · exact Or.inr (Or.inl (s4 q h))
              · exact Or.inr (Or.inr h)
    · have hhp : ¬ hasPrefix fs f.str = true := fun h => hpre ((hasPrefix_iff fs f.str).mp h)
      have hdel : (node u f one zero).delete fs = node u f one zero := by
        unfold delete; simp only [hhp, not_false_eq_true, if_true, Bool.false_eq_true]
      rw [hdel]
      refine ⟨⟨hbit, hf, hw1, hw0, hh1, hh0⟩, ?_, fun q hq => hq⟩
      intro k v
      constructor
      · intro h
        refine ⟨?_, h⟩
        rintro rfl
        have hp := content_prefix _ P _ h
        simp only [str] at hp
        exact hpre ((List.prefix_append_right_inj P).mp hp)
      · exact fun h => h.2
termination_by t => t

end Gosstrak
