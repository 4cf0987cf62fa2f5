import Verif.Model.Splay
import Verif.Proofs.Linked

/-! Search in well-formed splay trees. -/
namespace Gosstrak

namespace SNode

/-- filter strings on the `mismatchNext` chain -/
def chain : SNode → List Str
  | .node _ (some f) _ mm => f.str :: chain mm
  | _ => []

/-- (full filter string, URI) of all nodes below prefix `P` -/
def content : Str → SNode → FlatSubs
  | P, .node u (some f) m mm => (P ++ f.str, u) :: (content (P ++ f.str) m ++ content P mm)
  | _, _ => []

/-- well-formed below prefix `P`: filters sit at their offsets, no filter of a chain is a prefix of
    another one of the chain, nested filters are not empty -/
def WF : Str → SNode → Prop
  | _, .nil => True
  | _, .node _ none _ _ => False
  | P, .node _ (some f) m mm =>
    IsBitStr f.str ∧ f = newFilter f.str P.length ∧
    (∀ k ∈ chain mm, ¬ f.str <+: k ∧ ¬ k <+: f.str) ∧ (∀ k ∈ chain m, k ≠ []) ∧
    WF (P ++ f.str) m ∧ WF P mm

end SNode

open SNode

theorem prefix_or_prefix {a b c : Str} (h1 : a <+: c) (h2 : b <+: c) : a <+: b ∨ b <+: a := by
  rcases Nat.le_total a.length b.length with h | h
  · exact Or.inl (List.prefix_of_prefix_length_le h1 h2 h)
  · exact Or.inr (List.prefix_of_prefix_length_le h2 h1 h)

theorem scontent_chain : ∀ (t : SNode) (P : Str), ∀ e ∈ content P t, ∃ k ∈ chain t, P ++ k <+: e.1
  | .nil, _, e, h => by simp [content] at h
  | .node _ none _ _, _, e, h => by simp [content] at h
  | .node u (some f) m mm, P, e, h => by
    simp only [content, List.mem_cons, List.mem_append] at h
    rcases h with rfl | h | h
    · exact ⟨f.str, by simp [chain], List.prefix_rfl⟩
    · obtain ⟨k, -, hk⟩ := scontent_chain m _ e h
      exact ⟨f.str, by simp [chain], (List.prefix_append _ _).trans hk⟩
    · obtain ⟨k, hk, hp⟩ := scontent_chain mm _ e h
      exact ⟨k, by simp [chain, hk], hp⟩

theorem chain_content : ∀ (t : SNode) (P : Str), ∀ k ∈ chain t, ∃ u, (P ++ k, u) ∈ content P t
  | .nil, _, e, h => by simp [chain] at h
  | .node _ none _ _, _, e, h => by simp [chain] at h
  | .node u (some f) m mm, P, k, h => by
    simp only [chain, List.mem_cons] at h
    rcases h with rfl | h
    · exact ⟨u, by simp [content]⟩
    · obtain ⟨v, hv⟩ := chain_content mm P k h
      exact ⟨v, by simp [content, hv]⟩

/-- nothing of the rest of the chain matches an ID that matches the head -/
theorem rest_nomatch {P s B : Str} {mm : SNode} (ha : ∀ k ∈ chain mm, ¬ s <+: k ∧ ¬ k <+: s)
    (hs : P ++ s <+: B) : (content P mm).filter (fun e => decide (e.1 <+: B)) = [] := by
  rw [List.filter_eq_nil_iff]
  intro e he
  rw [decide_eq_true_iff]
  intro hB
  obtain ⟨k, hk, hp⟩ := scontent_chain mm P e he
  rcases prefix_or_prefix hs (hp.trans hB) with h | h
  · exact (ha k hk).1 ((List.prefix_append_right_inj P).mp h)
  · exact (ha k hk).2 ((List.prefix_append_right_inj P).mp h)

theorem sub_nomatch {Q B : Str} {m : SNode} (hs : ¬ Q <+: B) :
    (content Q m).filter (fun e => decide (e.1 <+: B)) = [] := by
  rw [List.filter_eq_nil_iff]
  intro e he
  rw [decide_eq_true_iff]
  intro hB
  obtain ⟨k, -, hp⟩ := scontent_chain m Q e he
  exact hs (((List.prefix_append _ _).trans hp).trans hB)

theorem scovers {P : Str} {f : FilterObject} {id : List Byte} (hid : id ≠ [])
    (hne : P = [] ∨ f.str ≠ []) (hlen : P.length + f.str.length ≤ 8 * id.length) :
    Covers f.str P.length id := by
  have hidl : 0 < id.length := List.length_pos_iff.mpr hid
  refine ⟨hlen, ?_⟩
  rcases hne with rfl | h
  · simpa using hidl
  · have := List.length_pos_iff.mpr h
    omega

/-- the matches of a search in a well-formed tree -/
theorem ssearch_wf (id : List Byte) (hid : id ≠ []) : ∀ (t : SNode) (P : Str) (first : Bool),
    t ≠ .nil → WF P t → (P = [] ∨ ∀ k ∈ chain t, k ≠ []) → P <+: bitsOf id →
    (∀ e ∈ content P t, e.1.length ≤ 8 * id.length) →
    ∃ rest lifted, t.splaySearch first id =
      some (((content P t).filter fun e => decide (e.1 <+: bitsOf id)).map Prod.snd, rest, lifted)
  | .nil, _, _, h, _, _, _, _ => absurd rfl h
  | .node _ none _ _, _, _, _, h, _, _, _ => h.elim
  | .node u (some f) m mm, P, first, _, ⟨hbit, hf, ha, hn, hwm, hwmm⟩, hne, hP, hfit => by
    have hlen : P.length + f.str.length ≤ 8 * id.length := by
      have := hfit (P ++ f.str, u) (by simp [content])
      simpa using this
    have hne' : P = [] ∨ f.str ≠ [] := hne.imp (fun h => h) fun h => h f.str (by simp [chain])
    have hm := matchID_prefix hbit hP (scovers hid hne' hlen)
    rw [← hf] at hm
    rw [splaySearch, hm]
    by_cases hpre : P ++ f.str <+: bitsOf id
    · simp only [hpre, decide_true]
      rw [content, List.filter_cons_of_pos (by simpa using hpre), List.filter_append,
        rest_nomatch ha hpre, List.append_nil, List.map_cons]
      by_cases hmn : m = .nil
      · subst hmn
        simp only [if_true, content, List.filter_nil, List.map_nil]
        cases first <;> exact ⟨_, _, rfl⟩
      · obtain ⟨rest, lifted, ih⟩ := ssearch_wf id hid m (P ++ f.str) true hmn hwm (Or.inr hn) hpre
          (fun e he => hfit e (by simp [content, he]))
        simp only [hmn, if_false, ih]
        cases first <;> exact ⟨_, _, rfl⟩
    · simp only [hpre, decide_false]
      rw [content, List.filter_cons_of_neg (by simpa using hpre), List.filter_append,
        sub_nomatch hpre, List.nil_append]
      by_cases hmn : mm = .nil
      · subst hmn
        simp only [if_true, content, List.filter_nil, List.map_nil]
        exact ⟨_, _, rfl⟩
      · obtain ⟨rest, lifted, ih⟩ := ssearch_wf id hid mm P false hmn hwmm
          (hne.imp (fun h => h) fun h k hk => h k (by simp [chain, hk])) hP
          (fun e he => hfit e (by simp [content, he]))
        simp only [hmn, if_false, ih]
        exact ⟨_, _, rfl⟩

/-- the matching filters come in ascending order -/
theorem scontent_ascending (B : Str) : ∀ (t : SNode) (P : Str), WF P t →
    (((content P t).filter fun e => decide (e.1 <+: B)).map Prod.fst).Pairwise (· < ·)
  | .nil, _, _ => by simp [content]
  | .node _ none _ _, _, h => h.elim
  | .node u (some f) m mm, P, ⟨hbit, hf, ha, hn, hwm, hwmm⟩ => by
    by_cases hpre : P ++ f.str <+: B
    · rw [content, List.filter_cons_of_pos (by simpa using hpre), List.filter_append,
        rest_nomatch ha hpre, List.append_nil, List.map_cons, List.pairwise_cons]
      refine ⟨?_, scontent_ascending B m _ hwm⟩
      intro k hk
      obtain ⟨e, he, rfl⟩ := List.mem_map.mp hk
      obtain ⟨s, hs, hp⟩ := scontent_chain m _ e (List.mem_filter.mp he).1
      apply lt_of_proper_prefix ((List.prefix_append _ _).trans hp)
      intro heq
      have h1 := hp.length_le
      rw [← heq] at h1
      have h2 := List.length_pos_iff.mpr (hn s hs)
      simp at h1
      omega
    · rw [content, List.filter_cons_of_neg (by simpa using hpre), List.filter_append,
        sub_nomatch hpre, List.nil_append]
      exact scontent_ascending B mm P hwmm

/-! ### building -/

theorem sbuild_spec : ∀ (fuel : Nat) (b : BSub) (P : Str), Linked b → Offsets P.length b →
    (∀ q u, Full b q u → IsBitStr q ∧ q.length < fuel) →
    ((∀ k p, (k, p) ∈ b → k ≠ []) ∨ ∀ q u, Full b q u → q.length + 1 < fuel) →
    (b ≠ [] → SNode.build fuel b ≠ .nil) ∧ WF P (SNode.build fuel b) ∧
    chain (SNode.build fuel b) = mapKeys b ∧
    (∀ k u, (k, u) ∈ content P (SNode.build fuel b) ↔ ∃ q, k = P ++ q ∧ Full b q u)
  | 0, b, P, hl, ho, hfull, _ => by
    have hb : b = [] := by
      cases b with
      | nil => rfl
      | cons e b =>
        obtain ⟨k, o, u, s⟩ := e
        have := (hfull k u (.here (by simp : (k, PSub.mk o u s) ∈ _))).2
        omega
    subst hb
    refine ⟨by simp, trivial, rfl, ?_⟩
    intro k u
    simp [SNode.build, content, full_nil]
  | fuel + 1, b, P, hl, ho, hfull, hfuel => by
    have key : ∀ ks : List Str, ks.Pairwise (· < ·) → (∀ k ∈ ks, ∃ p, (k, p) ∈ b) →
        let t := ks.foldr (buildStep (SNode.build fuel) b) SNode.nil
        (ks ≠ [] → t ≠ .nil) ∧ WF P t ∧ chain t = ks ∧
        (∀ k u, (k, u) ∈ content P t ↔ ∃ q, k = P ++ q ∧ ∃ k' ∈ ks, ∃ o v s, (k', PSub.mk o v s) ∈ b ∧
          ((q = k' ∧ u = v) ∨ ∃ q', q = k' ++ q' ∧ Full s q' u)) := by
      intro ks
      induction ks with
      | nil => intro _ _; refine ⟨by simp, trivial, rfl, ?_⟩; simp [content]
      | cons fs ks ih =>
        intro hlt hin
        rw [List.pairwise_cons] at hlt
        obtain ⟨i1, i2, i3, i4⟩ := ih hlt.2 fun k hk => hin k (by simp [hk])
        obtain ⟨⟨o, v, s⟩, hp⟩ := hin fs (by simp)
        have hget := mapGet_of_mem hl.isMap hp
        simp only [List.foldr_cons]
        generalize ks.foldr (buildStep (SNode.build fuel) b) SNode.nil = next at *
        have hstep : buildStep (SNode.build fuel) b fs next = .node v (some (newFilter fs o))
            (if s.length ≠ 0 then SNode.build fuel s else .nil) next := by
          unfold buildStep; rw [hget]; rfl
        rw [hstep]
        have hbit := (hfull fs v (.here hp)).1
        have hoff : o = P.length := ho.eq _ _ _ _ hp
        have hls := hl.sub _ _ _ _ hp
        have hne := hl.nonempty _ _ _ _ hp
        -- the subtree
        have hsub : ∃ m, m = (if s.length ≠ 0 then SNode.build fuel s else .nil) ∧
            WF (P ++ fs) m ∧ (∀ k ∈ chain m, k ≠ []) ∧
            (∀ k u, (k, u) ∈ content (P ++ fs) m ↔ ∃ q, k = (P ++ fs) ++ q ∧ Full s q u) := by
          refine ⟨_, rfl, ?_⟩
          by_cases hs : s = []
          · subst hs
            simp [content, chain, full_nil, WF]
          · have hs' : s.length ≠ 0 := by rw [Ne, List.length_eq_zero_iff]; exact hs
            rw [if_pos hs']
            have hos : Offsets (P ++ fs).length s := by
              rw [List.length_append]; exact ho.sub _ _ _ _ hp
            obtain ⟨-, r2, r3, r4⟩ := sbuild_spec fuel s (P ++ fs) hls hos (by
              intro q u hq
              have h1 := hfull _ _ (.under hp hq)
              refine ⟨h1.1.of_append_right, ?_⟩
              have h3 := h1.2
              rw [List.length_append] at h3
              rcases hfuel with h | h
              · have := List.length_pos_iff.mpr (h fs _ hp)
                omega
              · have := h _ _ (.under hp hq)
                rw [List.length_append] at this
                omega) (Or.inl hne)
            refine ⟨r2, ?_, r4⟩
            intro k hk
            rw [r3, mem_keys_iff] at hk
            obtain ⟨p, hk⟩ := hk
            exact hne k p hk
        obtain ⟨m, hm, m1, m2, m3⟩ := hsub
        rw [← hm]
        refine ⟨by simp, ⟨?_, ?_, ?_, m2, ?_, i2⟩, ?_, ?_⟩
        · rw [newFilter_str]; exact hbit
        · rw [newFilter_str, hoff]
        · intro k hk
          rw [i3] at hk
          rw [newFilter_str]
          obtain ⟨p, hkp⟩ := hin k (by simp [hk])
          have hlt' := hlt.1 k hk
          constructor
          · intro h
            have := hl.anti _ _ _ _ hp hkp h
            subst this; exact List.lt_irrefl _ hlt'
          · intro h
            have := hl.anti _ _ _ _ hkp hp h
            subst this; exact List.lt_irrefl _ hlt'
        · rw [newFilter_str]; exact m1
        · simp only [chain, newFilter_str, i3]
        · intro k u
          simp only [content, newFilter_str, List.mem_cons, List.mem_append, i4, m3, Prod.mk.injEq]
          constructor
          · rintro (⟨rfl, rfl⟩ | ⟨q, rfl, hq⟩ | ⟨q, rfl, k', hk', hrest⟩)
            · exact ⟨fs, rfl, fs, Or.inl rfl, o, u, s, hp, Or.inl ⟨rfl, rfl⟩⟩
            · exact ⟨fs ++ q, by simp, fs, Or.inl rfl, o, v, s, hp, Or.inr ⟨q, rfl, hq⟩⟩
            · exact ⟨q, rfl, k', Or.inr hk', hrest⟩
          · rintro ⟨q, rfl, k', rfl | hk', o', v', s', hp', hrest⟩
            · have hx := mapGet_of_mem hl.isMap hp'
              rw [hget] at hx
              injection hx with hx
              injection hx with h1 h2 h3
              subst h1; subst h2; subst h3
              rcases hrest with ⟨rfl, rfl⟩ | ⟨q', rfl, hq'⟩
              · exact Or.inl ⟨rfl, rfl⟩
              · exact Or.inr (Or.inl ⟨q', by simp, hq'⟩)
            · exact Or.inr (Or.inr ⟨q, rfl, k', hk', o', v', s', hp', hrest⟩)
    obtain ⟨h1, h2, h3, h4⟩ := key (mapKeys b) (mapKeys_lt hl.isMap) fun k hk => (mem_keys_iff b k).mp hk
    refine ⟨?_, h2, h3, ?_⟩
    · intro hb
      apply h1
      cases b with
      | nil => exact absurd rfl hb
      | cons e b =>
        intro h
        have : e.1 ∈ mapKeys (e :: b) := (mem_keys_iff _ _).mpr ⟨e.2, by simp⟩
        rw [h] at this
        simp at this
    · intro k u
      rw [SNode.build, h4]
      constructor
      · rintro ⟨q, rfl, k', -, o, v, s, hp, hrest⟩
        exact ⟨q, rfl, (full_iff _ _ _).mpr ⟨k', o, v, s, hp, hrest⟩⟩
      · rintro ⟨q, rfl, hq⟩
        obtain ⟨k', o, v, s, hp, hrest⟩ := (full_iff _ _ _).mp hq
        exact ⟨q, rfl, k', (mem_keys_iff _ _).mpr ⟨_, hp⟩, o, v, s, hp, hrest⟩

end Gosstrak
