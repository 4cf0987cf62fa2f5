import Verif.Spec.Trie
import Verif.Proofs.PatriciaUpdate

/-! The trie as a stored map, over histories of calls. -/
namespace Gosstrak

open PNode

theorem uri_nonempty {mk : Encoder} {sub : Subs} (h : UrisNonEmpty sub) (k u : Str)
    (hk : (k, u) ∈ toByteSubscriptions mk sub) : u ≠ [] := by
  rw [← mapGet_iff (isMap_toByteSubscriptions mk sub), mapGet_toByteSubscriptions] at hk
  have := mapGet_mem hk
  rw [List.mem_reverse, mem_storeOrder] at this
  obtain ⟨pats, hp, -⟩ := this
  exact h _ hp

/-- the trie `t` stores `S` and has only nodes on the way to filters in `W` -/
def Stores (t : PNode) (S : Str → Option Str) (W : List Str) : Prop :=
  t ≠ .nil ∧ WF [] t ∧ (∀ k u, (k, u) ∈ content [] t ↔ S k = some u) ∧
    ∀ q ∈ paths [] t, q = [] ∨ ∃ w ∈ W, q <+: w

theorem stores_fresh (mk : Encoder) (sub : Subs) (hu : UrisNonEmpty sub)
    (hb : ∀ k u, (k, u) ∈ toByteSubscriptions mk sub → IsBitStr k) :
    Stores (newPatricia mk sub) (FreshMap mk sub) (mapKeys (toByteSubscriptions mk sub)) := by
  have hm := isMap_toByteSubscriptions mk sub
  obtain ⟨hw, -, hp, hcon⟩ := newPatricia_spec _ hm fun e he => hb e.1 e.2 he
  refine ⟨by simp [newPatricia, newPatriciaFrom], hw, ?_, hp⟩
  intro k u
  rw [newPatricia, hcon]
  unfold FreshMap
  by_cases hk : k = lcp (mapKeys (toByteSubscriptions mk sub))
  · simp [hk]
  · rw [if_neg hk, mapGet_iff hm]
    exact ⟨fun h => h.1, fun h => ⟨h, uri_nonempty hu k u h, hk⟩⟩

theorem stores_search {t : PNode} {S : Str → Option Str} {W : List Str} (h : Stores t S W)
    (id : List Byte) (hid : id ≠ []) (hW : ∀ w ∈ W, w.length ≤ 8 * id.length) :
    ∃ uris, ReportsOf S id uris ∧ t.search id = some uris := by
  obtain ⟨h1, h2, h3, h4⟩ := h
  refine ⟨_, ⟨_, content_ascending (bitsOf id) _ [] h2, ?_, rfl⟩, ?_⟩
  · intro k u; rw [List.mem_filter, decide_eq_true_iff, h3]
  · apply search_wf id hid t [] h1 h2 (fun h => absurd rfl h) List.nil_prefix
    intro q hq
    rcases h4 q hq with rfl | ⟨w, hw, hpre⟩
    · simp
    · have := hW w hw
      have := hpre.length_le
      omega

theorem stores_add {t : PNode} {S : Str → Option Str} {W : List Str} (h : Stores t S W)
    (k u : Str) (hk : IsBitStr k) (hu : u ≠ []) (hsafe : SafeAt [] t k) :
    Stores (t.add k u) (fun k' => if k' = k then some u else S k') (W ++ [k]) := by
  obtain ⟨h1, h2, h3, h4⟩ := h
  obtain ⟨a1, a2, a3⟩ := add_spec t [] k u h1 h2 hk hu hsafe
  refine ⟨add_ne_nil t k u h1, a1, ?_, ?_⟩
  · intro k' v
    rw [a2]
    simp only [List.nil_append]
    by_cases hkk : k' = k
    · simp [hkk, eq_comm]
    · simp [hkk, h3]
  · intro q hq
    rcases a3 q hq with h | h
    · exact Or.inr ⟨k, by simp, by simpa using h⟩
    · rcases h4 q h with h | ⟨w, hw, hp⟩
      · exact Or.inl h
      · exact Or.inr ⟨w, by simp [hw], hp⟩

theorem safe_of_W {t : PNode} {S : Str → Option Str} {W : List Str} (h : Stores t S W) (k : Str)
    (hk : ∀ w ∈ W, k <+: w → k = w) : SafeAt [] t k := by
  obtain ⟨h1, h2, h3, h4⟩ := h
  by_cases hin : k ∈ paths [] t
  · exact Or.inl (by simpa using hin)
  · right
    intro q hq hpre
    rw [List.nil_append] at hpre
    rcases h4 q hq with rfl | ⟨w, hw, hqw⟩
    · rw [List.prefix_nil] at hpre; subst hpre; exact hin hq
    · have hkw := hk w hw (hpre.trans hqw)
      subst hkw
      have : q = k := hqw.eq_of_length (Nat.le_antisymm hqw.length_le hpre.length_le)
      exact hin (this ▸ hq)

theorem stores_delete' {t : PNode} {S : Str → Option Str} {W : List Str} (h : Stores t S W)
    (k : Str) (hk : IsBitStr k) (hleaf : t.isLeafWith k = true → S k = none) :
    Stores (t.delete k) (fun k' => if k' = k then none else S k') W := by
  obtain ⟨h1, h2, h3, h4⟩ := h
  cases hl : t.isLeafWith k with
  | true =>
    have hnone := hleaf hl
    obtain ⟨u, f, rfl, hs⟩ := (isLeafWith_iff _ _).mp hl
    have hd : (node u f .nil .nil).delete k = node u f .nil .nil := by
      subst hs
      unfold delete
      simp [(hasPrefix_iff f.str f.str).mpr List.prefix_rfl]
    rw [hd]
    refine ⟨h1, h2, ?_, h4⟩
    intro k' v
    rw [h3]
    by_cases hkk : k' = k
    · simp [hkk, hnone]
    · simp [hkk]
  | false =>
    obtain ⟨a1, a2, a3⟩ := delete_spec t [] k h1 h2 hk hl
    refine ⟨delete_ne_nil t k h1, a1, ?_, fun q hq => h4 q (a3 q hq)⟩
    intro k' v
    rw [a2, h3, List.nil_append]
    by_cases hkk : k' = k <;> simp [hkk]

theorem stores_delete {t : PNode} {S : Str → Option Str} {W : List Str} (h : Stores t S W)
    (k : Str) (hk : IsBitStr k) (hother : S k = none ∨ ∃ k' u, k' ≠ k ∧ S k' = some u) :
    Stores (t.delete k) (fun k' => if k' = k then none else S k') W := by
  apply stores_delete' h k hk
  intro hl
  obtain ⟨u, f, rfl, hs⟩ := (isLeafWith_iff _ _).mp hl
  rcases hother with h' | ⟨k', v, hne, hv⟩
  · exact h'
  · rw [← h.2.2.1] at hv
    simp only [content, List.nil_append, List.append_nil] at hv
    split at hv
    · simp at hv
    · simp at hv; exact absurd (hv.1.trans hs) hne

theorem Stores.congr {t : PNode} {S S' : Str → Option Str} {W W' : List Str} (h : Stores t S W)
    (hS : ∀ k, S k = S' k) (hW : ∀ w ∈ W, w ∈ W') : Stores t S' W' := by
  obtain ⟨h1, h2, h3, h4⟩ := h
  refine ⟨h1, h2, fun k u => by rw [h3, hS], fun q hq => ?_⟩
  rcases h4 q hq with h | ⟨w, hw, hp⟩
  · exact Or.inl h
  · exact Or.inr ⟨w, hW w hw, hp⟩

/-- the loop of `AddSubscription`: keys ascending, none a proper prefix of an earlier filter -/
theorem stores_addLoop (val : Str → Str) : ∀ (ks : List Str) (t : PNode) (S : Str → Option Str)
    (W : List Str), Stores t S W → ks.Pairwise (· < ·) → (∀ k ∈ ks, val k ≠ []) →
    (∀ k ∈ ks, IsBitStr k ∧ ∀ w ∈ W, k <+: w → k = w) →
    Stores (ks.foldl (fun t fs => t.add fs (val fs)) t)
      (fun k => if k ∈ ks then some (val k) else S k) (W ++ ks)
  | [], t, S, W, h, _, _, _ => h.congr (by simp) (by simp)
  | k :: ks, t, S, W, h, hlt, hv, hk => by
    rw [List.pairwise_cons] at hlt
    have hs := safe_of_W h k (hk k (by simp)).2
    have h1 := stores_add h k (val k) (hk k (by simp)).1 (hv k (by simp)) hs
    have h2 := stores_addLoop val ks (t.add k (val k)) _ _ h1 hlt.2 (fun k' h' => hv k' (by simp [h']))
      (by
        intro k' h'
        refine ⟨(hk k' (by simp [h'])).1, ?_⟩
        intro w hw hp
        rcases List.mem_append.mp hw with hw | hw
        · exact (hk k' (by simp [h'])).2 w hw hp
        · simp only [List.mem_singleton] at hw
          subst hw
          have h3 := hlt.1 k' h'
          have h4 := prefix_le hp
          exact absurd h3 (Std.not_lt.mpr h4))
    rw [List.foldl_cons]
    refine h2.congr ?_ (by simp)
    intro k'
    by_cases h' : k' ∈ ks
    · simp [h']
    · by_cases hkk : k' = k <;> simp [hkk]

theorem stores_deleteLoop : ∀ (ks : List Str) (t : PNode) (S : Str → Option Str) (W : List Str),
    Stores t S W → (∀ k ∈ ks, IsBitStr k) →
    ((∃ k u, k ∉ ks ∧ S k = some u) ∨ ∀ k ∈ ks, S k = none) →
    Stores (ks.foldl PNode.delete t) (fun k => if k ∈ ks then none else S k) W
  | [], t, S, W, h, _, _ => h.congr (by simp) (by simp)
  | k :: ks, t, S, W, h, hk, hc => by
    have h1 := stores_delete h k (hk k (by simp)) (by
      rcases hc with ⟨k', u, hn, hu⟩ | hc
      · right; exact ⟨k', u, fun h => hn (by simp [h]), hu⟩
      · left; exact hc k (by simp))
    have h2 := stores_deleteLoop ks _ _ W h1 (fun k' h' => hk k' (by simp [h'])) (by
      rcases hc with ⟨k', u, hn, hu⟩ | hc
      · left
        refine ⟨k', u, fun h => hn (by simp [h]), ?_⟩
        rw [if_neg (fun h => hn (by simp [h]))]; exact hu
      · right
        intro k' h'
        by_cases hkk : k' = k
        · simp [hkk]
        · simp [hkk, hc k' (by simp [h'])])
    rw [List.foldl_cons]
    refine h2.congr ?_ (fun _ h => h)
    intro k'
    by_cases hkk : k' = k
    · simp [hkk]
    · simp [hkk]

theorem stores_op (mk : Encoder) {t : PNode} {S : Str → Option Str} {W : List Str}
    (h : Stores t S W) (op : SubsOp) (ops : List SubsOp) (hb : Benign mk S W (op :: ops)) :
    Stores (t.applyOp mk op) (MapAfter mk S op) (W ++ AddedKeys mk op) := by
  cases op with
  | add s =>
    obtain ⟨⟨hu, hk⟩, -⟩ := hb
    have hm := isMap_toByteSubscriptions mk s
    have hv : ∀ k ∈ mapKeys (toByteSubscriptions mk s), ∃ u,
        mapGet (toByteSubscriptions mk s) k = some u := by
      intro k h'
      rw [mem_mapKeys] at h'
      exact (mapGet_isSome _ _).mpr h'
    have h1 := stores_addLoop (fun k => (mapGet (toByteSubscriptions mk s) k).getD [])
      (mapKeys (toByteSubscriptions mk s)) t S W h (mapKeys_lt hm) (by
        intro k h'
        obtain ⟨u, hu'⟩ := hv k h'
        rw [hu']
        exact uri_nonempty hu k u ((mapGet_iff hm k u).mp hu')) hk
    refine h1.congr ?_ (fun _ h => h)
    intro k
    simp only [MapAfter]
    by_cases hin : k ∈ mapKeys (toByteSubscriptions mk s)
    · obtain ⟨u, hu'⟩ := hv k hin
      simp [hin, hu']
    · rw [if_neg hin]
      rw [mem_mapKeys] at hin
      rw [(mapGet_none _ _).mpr hin]
      rfl
  | delete s =>
    obtain ⟨⟨hk, hc⟩, -⟩ := hb
    have hiff : ∀ k, k ∈ mapKeys (toByteSubscriptions mk s) ↔
        (mapGet (toByteSubscriptions mk s) k).isSome = true := by
      intro k
      rw [mem_mapKeys, ← mapGet_isSome, Option.isSome_iff_exists]
    have h1 := stores_deleteLoop (mapKeys (toByteSubscriptions mk s)) t S W h hk (by
      rcases hc with ⟨k, u, hu⟩ | hc
      · left
        simp only [MapAfter] at hu
        split at hu
        · simp at hu
        · rename_i hn
          exact ⟨k, u, fun h => hn ((hiff k).mp h), hu⟩
      · exact Or.inr hc)
    refine h1.congr ?_ (fun w hw => by simp [hw])
    intro k
    simp only [MapAfter]
    by_cases hin : k ∈ mapKeys (toByteSubscriptions mk s)
    · rw [if_pos hin, if_pos ((hiff k).mp hin)]
    · rw [if_neg hin, if_neg (fun h => hin ((hiff k).mpr h))]

theorem stores_ops (mk : Encoder) : ∀ (ops : List SubsOp) (t : PNode) (S : Str → Option Str)
    (W : List Str), Stores t S W → Benign mk S W ops →
    Stores (ops.foldl (PNode.applyOp mk) t) (ops.foldl (MapAfter mk) S)
      (W ++ ops.flatMap (AddedKeys mk))
  | [], t, S, W, h, _ => h.congr (fun _ => rfl) (by simp)
  | op :: ops, t, S, W, h, hb => by
    have h1 := stores_op mk h op ops hb
    have h2 := stores_ops mk ops _ _ _ h1 hb.2
    rw [List.foldl_cons, List.foldl_cons]
    exact h2.congr (fun _ => rfl) (by simp)

end Gosstrak
