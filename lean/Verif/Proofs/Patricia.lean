import Verif.Model.Patricia
import Verif.Proofs.ListEngine
import Verif.Props.Filter

namespace Gosstrak

namespace PNode

/-- the filter string at the node -/
def str : PNode → Str
  | .nil => []
  | .node _ f _ _ => f.str

/-- stored (full filter string, URI) pairs below prefix `P` -/
def content : Str → PNode → FlatSubs
  | _, .nil => []
  | P, .node u f one zero =>
    (if u = [] then [] else [(P ++ f.str, u)]) ++
      (content (P ++ f.str) one ++ content (P ++ f.str) zero)

/-- full filter strings of all nodes -/
def paths : Str → PNode → List Str
  | _, .nil => []
  | P, .node _ f one zero => (P ++ f.str) :: (paths (P ++ f.str) one ++ paths (P ++ f.str) zero)

/-- well-formed below prefix `P` -/
def WF : Str → PNode → Prop
  | _, .nil => True
  | P, .node _ f one zero =>
    IsBitStr f.str ∧ f = newFilter f.str P.length ∧
    WF (P ++ f.str) one ∧ WF (P ++ f.str) zero ∧
    (one ≠ .nil → one.str.head? = some '1') ∧ (zero ≠ .nil → zero.str.head? = some '0')

/-- all node strings fit in `n` bits -/
def Fits (n : Nat) (P : Str) (t : PNode) : Prop := ∀ q ∈ paths P t, q.length ≤ n

end PNode

open PNode

theorem newFilter_size (s : Str) (o : Nat) : (newFilter s o).size = s.length := rfl
theorem newFilter_offset (s : Str) (o : Nat) : (newFilter s o).offset = o := rfl

theorem paths_prefix : ∀ (t : PNode) (P : Str), ∀ q ∈ paths P t, P ++ t.str <+: q
  | .nil, P, q, h => by simp [paths] at h
  | .node u f one zero, P, q, h => by
    simp only [paths, List.mem_cons, List.mem_append] at h
    simp only [str]
    rcases h with rfl | h | h
    · exact List.prefix_rfl
    · exact (List.prefix_append _ _).trans (paths_prefix one _ q h)
    · exact (List.prefix_append _ _).trans (paths_prefix zero _ q h)

theorem content_paths : ∀ (t : PNode) (P : Str), ∀ e ∈ content P t, e.1 ∈ paths P t
  | .nil, P, e, h => by simp [content] at h
  | .node u f one zero, P, e, h => by
    simp only [content, List.mem_append] at h
    simp only [paths, List.mem_cons, List.mem_append]
    rcases h with h | h | h
    · split at h
      · simp at h
      · simp at h; left; rw [h]
    · exact Or.inr (Or.inl (content_paths one _ e h))
    · exact Or.inr (Or.inr (content_paths zero _ e h))

theorem content_prefix (t : PNode) (P : Str) (e : Str × Str) (h : e ∈ content P t) :
    P ++ t.str <+: e.1 := paths_prefix t P _ (content_paths t P e h)

theorem content_uri : ∀ (t : PNode) (P : Str), ∀ e ∈ content P t, e.2 ≠ []
  | .nil, P, e, h => by simp [content] at h
  | .node u f one zero, P, e, h => by
    simp only [content, List.mem_append] at h
    rcases h with h | h | h
    · split at h
      · simp at h
      · rename_i hu; simp at h; rw [h]; exact hu
    · exact content_uri one _ e h
    · exact content_uri zero _ e h

/-- the character of the ID right after the prefix `Q` -/
theorem getNextBit_bits {Q : Str} {id : List Byte} (c : Char) (hb : c = '1' ∨ c = '0') :
    getNextBit id Q.length = some c ↔ (bitsOf id)[Q.length]? = some c := by
  obtain ⟨h1, h0, -, -⟩ := C08_getNextBit id Q.length
  rw [bitsOf_getElem?]
  rcases hb with rfl | rfl
  · rw [h1]
    by_cases h : Q.length < 8 * id.length
    · simp [h]
    · simp [h]
  · rw [h0]
    by_cases h : Q.length < 8 * id.length
    · simp [h]
    · simp [h]

/-- an extension of `Q` by `c` starts the bits only if `c` is the next bit -/
theorem next_of_prefix {Q s B : Str} {c : Char} (hs : s.head? = some c) (h : Q ++ s <+: B) :
    B[Q.length]? = some c := by
  obtain ⟨r, rfl⟩ := h
  cases s with
  | nil => simp at hs
  | cons d s => simp at hs; subst hs; simp

theorem filter_content_nil {t : PNode} {Q B : Str} {c : Char}
    (hs : t ≠ .nil → t.str.head? = some c) (hn : B[Q.length]? ≠ some c) :
    (content Q t).filter (fun e => decide (e.1 <+: B)) = [] := by
  rw [List.filter_eq_nil_iff]
  intro e he hd
  have hd := of_decide_eq_true hd
  have ht : t ≠ .nil := by rintro rfl; simp [content] at he
  exact hn (next_of_prefix (hs ht) ((content_prefix t Q e he).trans hd))

theorem search_wf (id : List Byte) (hid : id ≠ []) : ∀ (t : PNode) (P : Str), t ≠ .nil → WF P t →
    (P ≠ [] → t.str ≠ []) → P <+: bitsOf id → Fits (8 * id.length) P t →
    t.search id = some (((content P t).filter fun e => decide (e.1 <+: bitsOf id)).map Prod.snd)
  | .nil, _, h, _, _, _, _ => absurd rfl h
  | .node u f one zero, P, _, ⟨hbit, hf, hw1, hw0, hh1, hh0⟩, hne, hP, hfit => by
    have hlen : P.length + f.str.length ≤ 8 * id.length := by
      have := hfit (P ++ f.str) (by simp [paths])
      simpa using this
    have hidl : 0 < id.length := List.length_pos_iff.mpr hid
    have hcov : Covers f.str P.length id := by
      refine ⟨hlen, ?_⟩
      by_cases hp : P = []
      · subst hp; simpa using hidl
      · have := List.length_pos_iff.mpr (hne hp)
        simp only [str] at this
        omega
    have hm := matchID_prefix hbit hP hcov
    rw [← hf] at hm
    have fit1 : Fits (8 * id.length) (P ++ f.str) one := fun q hq =>
      hfit q (by simp [paths, hq])
    have fit0 : Fits (8 * id.length) (P ++ f.str) zero := fun q hq =>
      hfit q (by simp [paths, hq])
    simp only [PNode.search, hm]
    by_cases hpre : P ++ f.str <+: bitsOf id
    · simp only [hpre, decide_true]
      have hoff : f.offset + f.size = (P ++ f.str).length := by
        rw [hf, newFilter_offset, newFilter_size, List.length_append, newFilter_str]
      rw [hoff]
      have huri : (if u.length ≠ 0 then [u] else []) =
          ((if u = [] then [] else [(P ++ f.str, u)]).filter
            fun e => decide (e.1 <+: bitsOf id)).map Prod.snd := by
        cases u with
        | nil => rfl
        | cons a u => simp [hpre]
      have e1 : one ≠ .nil → one.str.head? = some '1' := hh1
      have nonempty1 : one ≠ .nil → one.str ≠ [] := fun h => by
        intro h2; have := hh1 h; simp [h2] at this
      have nonempty0 : zero ≠ .nil → zero.str ≠ [] := fun h => by
        intro h2; have := hh0 h; simp [h2] at this
      rw [content, List.filter_append, List.filter_append, List.map_append, List.map_append, ← huri]
      obtain ⟨-, -, -, hnone⟩ := C08_getNextBit id (P ++ f.str).length
      cases hnb : getNextBit id (P ++ f.str).length with
      | none => exact absurd (hnone.mp hnb) (by simp; omega)
      | some nb =>
        simp only
        have hnb1 : nb = '1' ↔ (bitsOf id)[(P ++ f.str).length]? = some '1' := by
          rw [← getNextBit_bits '1' (Or.inl rfl), hnb]; simp
        have hnb0 : nb = '0' ↔ (bitsOf id)[(P ++ f.str).length]? = some '0' := by
          rw [← getNextBit_bits '0' (Or.inr rfl), hnb]; simp
        by_cases h1 : nb = '1'
        · have hz : (content (P ++ f.str) zero).filter (fun e => decide (e.1 <+: bitsOf id)) = [] :=
            filter_content_nil hh0 (fun h => by have := hnb0.mpr h; subst h1; revert this; decide)
          rw [hz]
          by_cases ho : one = .nil
          · subst h1; subst ho
            simp [content]
          · rw [if_pos ⟨h1, ho⟩, search_wf id hid one _ ho hw1 (fun _ => nonempty1 ho) hpre fit1]
            simp
        · have hone : (content (P ++ f.str) one).filter (fun e => decide (e.1 <+: bitsOf id)) = [] :=
            filter_content_nil hh1 (fun h => h1 (hnb1.mpr h))
          rw [hone, if_neg (fun h => h1 h.1)]
          by_cases h0 : nb = '0' ∧ zero ≠ .nil
          · rw [if_pos h0, search_wf id hid zero _ h0.2 hw0 (fun _ => nonempty0 h0.2) hpre fit0]
            simp
          · rw [if_neg h0]
            have hz : (content (P ++ f.str) zero).filter (fun e => decide (e.1 <+: bitsOf id)) = [] := by
              by_cases hzn : zero = .nil
              · subst hzn; simp [content]
              · exact filter_content_nil hh0 (fun h => h0 ⟨hnb0.mpr h, hzn⟩)
            simp [hz]
    · simp only [hpre, decide_false]
      have : (content P (.node u f one zero)).filter (fun e => decide (e.1 <+: bitsOf id)) = [] := by
        rw [List.filter_eq_nil_iff]
        intro e he hd
        exact hpre ((content_prefix _ P e he).trans (of_decide_eq_true hd))
      rw [this]
      rfl

theorem lt_of_proper_prefix {a b : Str} (h : a <+: b) (hne : a ≠ b) : a < b :=
  str_lt_of_le_of_ne (prefix_le h) hne

/-- the selected entries come in strictly ascending key order -/
theorem content_ascending (B : Str) : ∀ (t : PNode) (P : Str), WF P t →
    (((content P t).filter fun e => decide (e.1 <+: B)).map Prod.fst).Pairwise (· < ·)
  | .nil, _, _ => by simp [content]
  | .node u f one zero, P, ⟨hbit, hf, hw1, hw0, hh1, hh0⟩ => by
    have ih1 := content_ascending B one (P ++ f.str) hw1
    have ih0 := content_ascending B zero (P ++ f.str) hw0
    have hdeep : ∀ e, e ∈ content (P ++ f.str) one ++ content (P ++ f.str) zero →
        P ++ f.str < e.1 := by
      intro e he
      have hlen : ∀ (t : PNode) (c : Char), (t ≠ .nil → t.str.head? = some c) →
          e ∈ content (P ++ f.str) t → P ++ f.str < e.1 := by
        intro t c ht het
        have htn : t ≠ .nil := by rintro rfl; simp [content] at het
        have hp := content_prefix t _ e het
        apply lt_of_proper_prefix ((List.prefix_append _ _).trans hp)
        intro heq
        have h2 := hp.length_le
        rw [← heq] at h2
        have h3 := ht htn
        cases hs : t.str with
        | nil => rw [hs] at h3; simp at h3
        | cons a l => rw [hs] at h2; simp at h2; omega
      rcases List.mem_append.mp he with h | h
      · exact hlen one '1' hh1 h
      · exact hlen zero '0' hh0 h
    rw [content, List.filter_append, List.map_append, List.pairwise_append]
    refine ⟨?_, ?_, ?_⟩
    · split
      · simp
      · rw [List.filter_cons]; split <;> simp
    · rw [List.filter_append, List.map_append]
      by_cases h1 : B[(P ++ f.str).length]? = some '1'
      · have hz : (content (P ++ f.str) zero).filter (fun e => decide (e.1 <+: B)) = [] :=
          filter_content_nil hh0 (by rw [h1]; simp)
        rw [hz]
        simpa using ih1
      · have ho : (content (P ++ f.str) one).filter (fun e => decide (e.1 <+: B)) = [] :=
          filter_content_nil hh1 h1
        rw [ho]
        simpa using ih0
    · intro a ha b hb
      obtain ⟨e, he, rfl⟩ := List.mem_map.mp hb
      obtain ⟨d, hd, rfl⟩ := List.mem_map.mp ha
      have hd' := (List.mem_filter.mp hd).1
      split at hd'
      · simp at hd'
      · simp at hd'; subst hd'
        exact hdeep e (List.mem_filter.mp he).1

/-! ### build -/

theorem lcp2_spec (a b : Str) :
    lcp [a, b] <+: a ∧ lcp [a, b] <+: b ∧ ∀ q, q <+: a → q <+: b → q <+: lcp [a, b] := by
  obtain ⟨h1, h2⟩ := lcp_spec [a, b] (by simp)
  exact ⟨h1 a (by simp), h1 b (by simp), fun q ha hb => h2 q (by simp [ha, hb])⟩

/-- remainders after `pre` that start with `c` -/
def remainders (c : Char) (pre : Str) (keys : List Str) : List Str :=
  keys.filterMap fun fk =>
    if hasPrefix fk pre ∧ (fk.drop pre.length).head? = some c then some (fk.drop pre.length) else none

theorem mem_remainders {c : Char} {pre : Str} {keys : List Str} {p : Str} :
    p ∈ remainders c pre keys ↔ pre ++ p ∈ keys ∧ p.head? = some c := by
  unfold remainders hasPrefix
  simp only [List.mem_filterMap]
  constructor
  · rintro ⟨fk, hfk, h⟩
    split at h
    · rename_i hc
      obtain ⟨r, rfl⟩ := List.isPrefixOf_iff_prefix.mp hc.1
      simp at h
      subst h
      exact ⟨hfk, by simpa using hc.2⟩
    · simp at h
  · rintro ⟨h1, h2⟩
    exact ⟨pre ++ p, h1, by simp [h2]⟩

theorem branch_eq (c : Char) (pre : Str) (keys : List Str) : ∀ acc : Str,
    keys.foldl (fun acc fk =>
      if hasPrefix fk pre then
        let p := fk.drop pre.length
        if p.head? = some c then (if acc.length = 0 then p else lcp [p, acc]) else acc
      else acc) acc =
    (remainders c pre keys).foldl (fun acc p => if acc.length = 0 then p else lcp [p, acc]) acc := by
  induction keys with
  | nil => intro acc; rfl
  | cons k keys ih =>
    intro acc
    rw [List.foldl_cons, ih]
    unfold remainders
    rw [List.filterMap_cons]
    by_cases h1 : hasPrefix k pre = true
    · by_cases h2 : (k.drop pre.length).head? = some c
      · simp only [h1, h2, and_self, if_true, List.foldl_cons]
      · simp only [h1, h2, and_false, if_true, if_false]
    · simp only [h1, false_and, if_false, Bool.false_eq_true]

theorem fold_lcp (c : Char) : ∀ (l : List Str) (acc : Str), acc.head? = some c →
    (∀ p ∈ l, p.head? = some c) →
    let r := l.foldl (fun acc p => if acc.length = 0 then p else lcp [p, acc]) acc
    r.head? = some c ∧ r <+: acc ∧ (∀ p ∈ l, r <+: p)
  | [], acc, h, _ => ⟨h, List.prefix_rfl, by simp⟩
  | p :: l, acc, h, hl => by
    have hacc : ¬ acc.length = 0 := by
      intro h0; rw [List.length_eq_zero_iff.mp h0] at h; simp at h
    simp only [List.foldl_cons, hacc, if_false]
    obtain ⟨l1, l2, l3⟩ := lcp2_spec p acc
    have hp := hl p (by simp)
    have hhead : (lcp [p, acc]).head? = some c := by
      have hc : [c] <+: lcp [p, acc] := by
        apply l3
        · cases p with
          | nil => simp at hp
          | cons d p => simp at hp; subst hp; simp
        · cases acc with
          | nil => simp at h
          | cons d p => simp at h; subst h; simp
      obtain ⟨r, hr⟩ := hc
      rw [← hr]; rfl
    obtain ⟨r1, r2, r3⟩ := fold_lcp c l (lcp [p, acc]) hhead fun q hq => hl q (by simp [hq])
    refine ⟨r1, r2.trans l2, fun q hq => ?_⟩
    rcases List.mem_cons.mp hq with rfl | hq
    · exact r2.trans l1
    · exact r3 q hq

theorem branch_spec (c : Char) (pre : Str) (keys : List Str) :
    (branch c pre keys = [] ∧ ∀ p, p.head? = some c → pre ++ p ∉ keys) ∨
    ((branch c pre keys).head? = some c ∧
      (∀ p, p.head? = some c → pre ++ p ∈ keys → branch c pre keys <+: p) ∧
      ∃ p, pre ++ p ∈ keys ∧ branch c pre keys <+: p) := by
  unfold branch
  rw [branch_eq]
  have hmem := fun p => mem_remainders (c := c) (pre := pre) (keys := keys) (p := p)
  cases hr : remainders c pre keys with
  | nil =>
    left
    refine ⟨rfl, fun p hp hk => ?_⟩
    have := (hmem p).mpr ⟨hk, hp⟩
    rw [hr] at this
    simp at this
  | cons a l =>
    right
    rw [List.foldl_cons]
    simp only [List.length_nil, if_true]
    have ha : a.head? = some c ∧ pre ++ a ∈ keys := by
      have := (hmem a).mp (by rw [hr]; simp)
      exact ⟨this.2, this.1⟩
    obtain ⟨r1, r2, r3⟩ := fold_lcp c l a ha.1 fun q hq =>
      ((hmem q).mp (by rw [hr]; simp [hq])).2
    refine ⟨r1, fun p hp hk => ?_, a, ha.2, r2⟩
    have := (hmem p).mpr ⟨hk, hp⟩
    rw [hr] at this
    rcases List.mem_cons.mp this with rfl | h
    · exact r2
    · exact r3 p h

theorem le_maxKeyLength (bsub : FlatSubs) (e : Str × Str) (h : e ∈ bsub) :
    e.1.length ≤ maxKeyLength bsub := by
  induction bsub with
  | nil => simp at h
  | cons d l ih =>
    unfold maxKeyLength at ih ⊢
    simp only [List.foldr_cons]
    rcases List.mem_cons.mp h with rfl | h
    · omega
    · have := ih h; omega

/-- one child of `build` -/
def buildChild (bsub : FlatSubs) (fuel : Nat) (pre : Str) (c : Char) : PNode :=
  if (branch c pre (mapKeys bsub)).length ≠ 0 then
    .node ((mapGet bsub (pre ++ branch c pre (mapKeys bsub))).getD [])
      (newFilter (branch c pre (mapKeys bsub)) pre.length)
      (build bsub fuel (pre ++ branch c pre (mapKeys bsub))).1
      (build bsub fuel (pre ++ branch c pre (mapKeys bsub))).2
  else .nil

theorem build_succ (bsub : FlatSubs) (fuel : Nat) (pre : Str) :
    build bsub (fuel + 1) pre = (buildChild bsub fuel pre '1', buildChild bsub fuel pre '0') := by
  rw [build]; rfl

theorem key_bit {bsub : FlatSubs} (hb : ∀ e ∈ bsub, IsBitStr e.1) {k : Str}
    (h : k ∈ mapKeys bsub) : IsBitStr k := by
  rw [mem_mapKeys] at h
  obtain ⟨e, he, rfl⟩ := List.mem_map.mp h
  exact hb e he

theorem key_len {bsub : FlatSubs} {k : Str}
    (h : k ∈ mapKeys bsub) : k.length ≤ maxKeyLength bsub := by
  rw [mem_mapKeys] at h
  obtain ⟨e, he, rfl⟩ := List.mem_map.mp h
  exact le_maxKeyLength _ e he

/-- the children of a node with prefix `pre` hold exactly the entries that extend `pre` -/
theorem build_spec (bsub : FlatSubs) (hm : IsMap bsub) (hb : ∀ e ∈ bsub, IsBitStr e.1) :
    ∀ (fuel : Nat) (pre : Str), maxKeyLength bsub < pre.length + fuel → ∀ c, (c = '1' ∨ c = '0') →
    let t := buildChild bsub (fuel - 1) pre c
    (t ≠ .nil → t.str.head? = some c) ∧ WF pre t ∧
    (∀ q ∈ paths pre t, ∃ k ∈ mapKeys bsub, q <+: k) ∧
    (∀ e, e ∈ content pre t ↔ e ∈ bsub ∧ e.2 ≠ [] ∧ ∃ s, s.head? = some c ∧ e.1 = pre ++ s) := by
  intro fuel
  induction fuel with
  | zero =>
    intro pre hlen c hc
    have hz : ∀ p, p.head? = some c → pre ++ p ∉ mapKeys bsub := by
      intro p hp hk
      have := key_len hk
      simp at this
      omega
    have hbr : branch c pre (mapKeys bsub) = [] := by
      rcases branch_spec c pre (mapKeys bsub) with h | h
      · exact h.1
      · obtain ⟨-, -, p, hp, hpre⟩ := h
        have := key_len hp
        simp at this
        omega
    simp only [buildChild, hbr, List.length_nil, ne_eq, not_true_eq_false, if_false]
    refine ⟨by simp, trivial, by simp [paths], ?_⟩
    rintro ⟨k, u⟩
    simp only [content, List.not_mem_nil, false_iff]
    rintro ⟨h1, h2, s, hs, rfl⟩
    exact hz s hs ((mem_mapKeys _ _).mpr (List.mem_map.mpr ⟨_, h1, rfl⟩))
  | succ fuel ih =>
    intro pre hlen c hc
    rcases branch_spec c pre (mapKeys bsub) with ⟨hbr, hz⟩ | ⟨hhead, hall, p, hp, hpre⟩
    · simp only [buildChild, hbr, List.length_nil, ne_eq, not_true_eq_false, if_false]
      refine ⟨by simp, trivial, by simp [paths], ?_⟩
      rintro ⟨k, u⟩
      simp only [content, List.not_mem_nil, false_iff]
      rintro ⟨h1, h2, s, hs, rfl⟩
      exact hz s hs ((mem_mapKeys _ _).mpr (List.mem_map.mpr ⟨_, h1, rfl⟩))
    · generalize hbdef : branch c pre (mapKeys bsub) = b at *
      have hbne : b ≠ [] := by rintro rfl; simp at hhead
      have hblen : ¬ b.length = 0 := by rw [List.length_eq_zero_iff]; exact hbne
      have hbbit : IsBitStr b := (key_bit hb hp).of_append_right.of_prefix hpre
      have hpos : 0 < b.length := by omega
      have hfuel : 0 < fuel ∨ fuel = 0 := by omega
      have hklen := key_len hp
      have hprel := hpre.length_le
      simp only [List.length_append] at hklen
      have hfpos : 0 < fuel ∨ maxKeyLength bsub < (pre ++ b).length + fuel := by
        simp only [List.length_append]; omega
      have hcum : maxKeyLength bsub < (pre ++ b).length + fuel := by
        simp only [List.length_append]; omega
      obtain ⟨a1, a2, a3, a4⟩ := ih (pre ++ b) hcum '1' (Or.inl rfl)
      obtain ⟨b1, b2, b3, b4⟩ := ih (pre ++ b) hcum '0' (Or.inr rfl)
      -- the children, at whatever fuel is left
      have hch : build bsub fuel (pre ++ b) =
          (buildChild bsub (fuel - 1) (pre ++ b) '1', buildChild bsub (fuel - 1) (pre ++ b) '0') := by
        cases fuel with
        | succ n => rw [build_succ]; rfl
        | zero =>
          have nobr : ∀ c, branch c (pre ++ b) (mapKeys bsub) = [] := by
            intro c
            rcases branch_spec c (pre ++ b) (mapKeys bsub) with h | ⟨-, -, p, hp, -⟩
            · exact h.1
            · have := key_len hp; simp at this; simp at hcum; omega
          simp [build, buildChild, nobr]
      have htdef : buildChild bsub (fuel + 1 - 1) pre c =
          .node ((mapGet bsub (pre ++ b)).getD []) (newFilter b pre.length)
            (buildChild bsub (fuel - 1) (pre ++ b) '1')
            (buildChild bsub (fuel - 1) (pre ++ b) '0') := by
        rw [Nat.add_sub_cancel, buildChild, hbdef]
        simp only [ne_eq, hblen, not_false_eq_true, if_true, hch]
      simp only [htdef]
      refine ⟨fun _ => hhead, ⟨hbbit, rfl, a2, b2, a1, b1⟩, ?_, ?_⟩
      · intro q hq
        simp only [paths, List.mem_cons, List.mem_append, newFilter_str] at hq
        rcases hq with rfl | hq | hq
        · exact ⟨pre ++ p, hp, (List.prefix_append_right_inj pre).mpr hpre⟩
        · exact a3 q hq
        · exact b3 q hq
      · rintro ⟨k, u⟩
        simp only [content, List.mem_append, newFilter_str, a4, b4]
        constructor
        · rintro (h | ⟨h1, h2, s, hs, rfl⟩ | ⟨h1, h2, s, hs, rfl⟩)
          · split at h
            · simp at h
            · rename_i hu
              simp at h
              obtain ⟨rfl, rfl⟩ := h
              cases hg : mapGet bsub (pre ++ b) with
              | none => rw [hg] at hu; simp at hu
              | some w =>
                rw [hg] at hu
                refine ⟨mapGet_mem hg, hu, b, hhead, rfl⟩
          · refine ⟨h1, h2, b ++ s, ?_, by rw [List.append_assoc]⟩
            rw [List.head?_append, hhead]; rfl
          · refine ⟨h1, h2, b ++ s, ?_, by rw [List.append_assoc]⟩
            rw [List.head?_append, hhead]; rfl
        · rintro ⟨h1, h2, s, hs, hk⟩
          subst hk
          have hkey : pre ++ s ∈ mapKeys bsub :=
            (mem_mapKeys _ _).mpr (List.mem_map.mpr ⟨_, h1, rfl⟩)
          obtain ⟨r, rfl⟩ := hall s hs hkey
          cases r with
          | nil =>
            left
            simp only [List.append_nil] at h1 ⊢
            rw [mapGet_of_mem hm h1]
            simp only [Option.getD_some]
            rw [if_neg h2]
            simp
          | cons d r =>
            have hd : d = '0' ∨ d = '1' := key_bit hb hkey d (by simp)
            right
            rcases hd with rfl | rfl
            · right; exact ⟨h1, h2, '0' :: r, rfl, by simp⟩
            · left; exact ⟨h1, h2, '1' :: r, rfl, by simp⟩

/-- enough fuel: more of it does not change the children -/
theorem build_fuel (bsub : FlatSubs) (k : Nat) : ∀ (fuel : Nat) (pre : Str),
    maxKeyLength bsub < pre.length + fuel →
    build bsub (fuel + k) pre = build bsub fuel pre := by
  intro fuel
  induction fuel with
  | zero =>
    intro pre h
    have nobr : ∀ c, branch c pre (mapKeys bsub) = [] := by
      intro c
      rcases branch_spec c pre (mapKeys bsub) with h | ⟨-, -, p, hp, -⟩
      · exact h.1
      · have := key_len hp; simp at this; omega
    cases k with
    | zero => rfl
    | succ k => rw [Nat.zero_add, build_succ]; simp [build, buildChild, nobr]
  | succ fuel ih =>
    intro pre h
    rw [show fuel + 1 + k = (fuel + k) + 1 by omega, build_succ, build_succ]
    have : ∀ c, buildChild bsub (fuel + k) pre c = buildChild bsub fuel pre c := by
      intro c
      unfold buildChild
      split
      · rename_i hb
        rw [ih]
        simp only [List.length_append]; omega
      · rfl
    rw [this, this]

theorem newPatricia_spec (bsub : FlatSubs) (hm : IsMap bsub) (hb : ∀ e ∈ bsub, IsBitStr e.1) :
    WF [] (newPatriciaFrom bsub) ∧ (newPatriciaFrom bsub).str = lcp (mapKeys bsub) ∧
    (∀ q ∈ paths [] (newPatriciaFrom bsub), q = [] ∨ ∃ k ∈ mapKeys bsub, q <+: k) ∧
    (∀ e, e ∈ content [] (newPatriciaFrom bsub) ↔
      e ∈ bsub ∧ e.2 ≠ [] ∧ e.1 ≠ lcp (mapKeys bsub)) := by
  have hlen : maxKeyLength bsub < (lcp (mapKeys bsub)).length + (maxKeyLength bsub + 1) := by omega
  obtain ⟨a1, a2, a3, a4⟩ := build_spec bsub hm hb _ _ hlen '1' (Or.inl rfl)
  obtain ⟨b1, b2, b3, b4⟩ := build_spec bsub hm hb _ _ hlen '0' (Or.inr rfl)
  unfold newPatriciaFrom
  simp only [build_succ]
  rw [Nat.add_sub_cancel] at a1 a2 a3 a4 b1 b2 b3 b4
  have hroot : lcp (mapKeys bsub) = [] ∨ ∃ k ∈ mapKeys bsub, lcp (mapKeys bsub) <+: k := by
    cases hk : mapKeys bsub with
    | nil => left; rfl
    | cons k ks =>
      right
      exact ⟨k, by simp, (lcp_spec (k :: ks) (by simp)).1 k (by simp)⟩
  refine ⟨⟨?_, rfl, ?_, ?_, a1, b1⟩, rfl, ?_, ?_⟩
  · rcases hroot with h | ⟨k, hk, hp⟩
    · simp only [newFilter_str]; rw [h]; intro c hc; simp at hc
    · exact (key_bit hb hk).of_prefix hp
  · simpa [newFilter_str] using a2
  · simpa [newFilter_str] using b2
  · intro q hq
    simp only [paths, List.nil_append, newFilter_str, List.mem_cons, List.mem_append] at hq
    rcases hq with rfl | hq | hq
    · exact hroot
    · exact Or.inr (a3 q hq)
    · exact Or.inr (b3 q hq)
  · rintro ⟨k, u⟩
    simp only [content, List.nil_append, newFilter_str, if_true, List.mem_append, a4, b4]
    constructor
    · rintro (⟨h1, h2, s, hs, rfl⟩ | ⟨h1, h2, s, hs, rfl⟩)
      all_goals
        refine ⟨h1, h2, fun h => ?_⟩
        have : s = [] := by
          have := congrArg List.length h
          simp at this
          exact this
        rw [this] at hs
        simp at hs
    · rintro ⟨h1, h2, h3⟩
      have hkey : k ∈ mapKeys bsub := (mem_mapKeys _ _).mpr (List.mem_map.mpr ⟨_, h1, rfl⟩)
      have hne : mapKeys bsub ≠ [] := List.ne_nil_of_mem hkey
      obtain ⟨r, hr⟩ := (lcp_spec _ hne).1 k hkey
      cases r with
      | nil => exact absurd (by rw [← hr]; simp) h3
      | cons d r =>
        have hd : d = '0' ∨ d = '1' := key_bit hb hkey d (by rw [← hr]; simp)
        rcases hd with rfl | rfl
        · right; exact ⟨h1, h2, _, rfl, hr.symm⟩
        · left; exact ⟨h1, h2, _, rfl, hr.symm⟩

end Gosstrak
