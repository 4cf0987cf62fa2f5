import Verif.Proofs.PatriciaGrow
import Verif.Proofs.Ids

/-! What a search finds below a changed prefix, and after an addition inside an edge. -/
namespace Gosstrak

open PNode

theorem append_prefix_drop {s r b : Str} {n : Nat} (h : s <+: b.drop n) :
    s ++ r <+: b.drop n ↔ r <+: b.drop (n + s.length) := by
  obtain ⟨t, ht⟩ := h
  have : b.drop (n + s.length) = t := by
    rw [← List.drop_drop, ← ht]; simp
  rw [this, ← ht, List.prefix_append_right_inj]

theorem prefix_iff_drop {P s B : Str} (h : P <+: B) : P ++ s <+: B ↔ s <+: B.drop P.length := by
  obtain ⟨t, rfl⟩ := h
  simp [List.prefix_append_right_inj]

theorem drop_head {Q B r : Str} {c : Char} (hs : r.head? = some c) (h : r <+: B.drop Q.length) :
    B[Q.length]? = some c := by
  obtain ⟨t, ht⟩ := h
  cases r with
  | nil => simp at hs
  | cons d r =>
    simp at hs
    subst hs
    have := congrArg (·[0]?) ht
    simp at this
    rw [← this]

/-- a search looks only at the bits from its node on -/
theorem search_rel (id : List Byte) (hid : id ≠ []) : ∀ (t : PNode) (P : Str), t ≠ .nil → WF P t →
    (P ≠ [] → t.str ≠ []) → Fits (8 * id.length) P t →
    t.search id = some (((content P t).filter fun e =>
      decide (e.1.drop P.length <+: (bitsOf id).drop P.length)).map Prod.snd)
  | .nil, _, h, _, _, _ => absurd rfl h
  | .node u f one zero, P, _, ⟨hbit, hf, hw1, hw0, hh1, hh0⟩, hne, hfit => by
    have hlen : P.length + f.str.length ≤ 8 * id.length := by
      have := hfit (P ++ f.str) (by simp [paths])
      simpa using this
    have hidl : 0 < id.length := List.length_pos_iff.mpr hid
    have hcov : Covers f.str P.length id := by
      refine ⟨hlen, ?_⟩
      by_cases hp : P = []
      · subst hp; simpa using hidl
      · have := List.length_pos_iff.mpr (hne hp)
        simp only [str] at this
        omega
    have hm := matchID_drop hbit hcov
    rw [← hf] at hm
    have fit1 : Fits (8 * id.length) (P ++ f.str) one := fun q hq =>
      hfit q (by simp [paths, hq])
    have fit0 : Fits (8 * id.length) (P ++ f.str) zero := fun q hq =>
      hfit q (by simp [paths, hq])
    simp only [PNode.search, hm]
    by_cases hpre : f.str <+: (bitsOf id).drop P.length
    · simp only [hpre, decide_true]
      have hoff : f.offset + f.size = (P ++ f.str).length := by
        rw [hf, newFilter_offset, newFilter_size, List.length_append, newFilter_str]
      rw [hoff]
      have huri : (if u.length ≠ 0 then [u] else []) =
          ((if u = [] then [] else [(P ++ f.str, u)]).filter
            fun e => decide (e.1.drop P.length <+: (bitsOf id).drop P.length)).map Prod.snd := by
        cases u with
        | nil => rfl
        | cons a u => simp [hpre]
      have nonempty1 : one ≠ .nil → one.str ≠ [] := fun h => by
        intro h2; have := hh1 h; simp [h2] at this
      have nonempty0 : zero ≠ .nil → zero.str ≠ [] := fun h => by
        intro h2; have := hh0 h; simp [h2] at this
      -- below this node, the same condition relative to it
      have rel : ∀ t : PNode, (content (P ++ f.str) t).filter
            (fun e => decide (e.1.drop P.length <+: (bitsOf id).drop P.length)) =
          (content (P ++ f.str) t).filter
            (fun e => decide (e.1.drop (P ++ f.str).length <+: (bitsOf id).drop (P ++ f.str).length)) := by
        intro t
        apply List.filter_congr
        intro e he
        obtain ⟨r, hr⟩ := (List.prefix_append _ _).trans (content_prefix t _ e he)
        rw [decide_eq_decide, ← hr]
        simp only [List.append_assoc, List.drop_left]
        rw [append_prefix_drop hpre, List.length_append]
        simp [← List.append_assoc, ← List.length_append]
      have none : ∀ (t : PNode) (c : Char), (t ≠ .nil → t.str.head? = some c) →
          (bitsOf id)[(P ++ f.str).length]? ≠ some c → (content (P ++ f.str) t).filter
            (fun e => decide (e.1.drop (P ++ f.str).length <+: (bitsOf id).drop (P ++ f.str).length)) = [] := by
        intro t c ht hn
        rw [List.filter_eq_nil_iff]
        intro e he hd
        have hd := of_decide_eq_true hd
        have htn : t ≠ .nil := by rintro rfl; simp [content] at he
        obtain ⟨r, hr⟩ := content_prefix t _ e he
        rw [← hr, List.append_assoc, List.drop_left] at hd
        exact hn (drop_head (ht htn) ((List.prefix_append _ _).trans hd))
      rw [content, List.filter_append, List.filter_append, List.map_append, List.map_append, ← huri,
        rel, rel]
      obtain ⟨-, -, -, hnone⟩ := C08_getNextBit id (P ++ f.str).length
      cases hnb : getNextBit id (P ++ f.str).length with
      | none => exact absurd (hnone.mp hnb) (by simp; omega)
      | some nb =>
        simp only
        have hnb1 : nb = '1' ↔ (bitsOf id)[(P ++ f.str).length]? = some '1' := by
          rw [← getNextBit_bits '1' (Or.inl rfl), hnb]; simp
        have hnb0 : nb = '0' ↔ (bitsOf id)[(P ++ f.str).length]? = some '0' := by
          rw [← getNextBit_bits '0' (Or.inr rfl), hnb]; simp
        by_cases h1 : nb = '1'
        · rw [none zero '0' hh0 (fun h => by have := hnb0.mpr h; subst h1; revert this; decide)]
          by_cases ho : one = .nil
          · subst h1; subst ho
            simp [content]
          · rw [if_pos ⟨h1, ho⟩, search_rel id hid one _ ho hw1 (fun _ => nonempty1 ho) fit1]
            simp
        · rw [none one '1' hh1 (fun h => h1 (hnb1.mpr h)), if_neg (fun h => h1 h.1)]
          by_cases h0 : nb = '0' ∧ zero ≠ .nil
          · rw [if_pos h0, search_rel id hid zero _ h0.2 hw0 (fun _ => nonempty0 h0.2) fit0]
            simp
          · rw [if_neg h0]
            by_cases hzn : zero = .nil
            · subst hzn; simp [content]
            · rw [none zero '0' hh0 (fun h => h0 ⟨hnb0.mpr h, hzn⟩)]
              simp
    · simp only [hpre, decide_false]
      have : (content P (.node u f one zero)).filter
          (fun e => decide (e.1.drop P.length <+: (bitsOf id).drop P.length)) = [] := by
        rw [List.filter_eq_nil_iff]
        intro e he hd
        have hd := of_decide_eq_true hd
        obtain ⟨r, hr⟩ := content_prefix _ P e he
        rw [← hr, List.append_assoc, List.drop_left] at hd
        exact hpre ((List.prefix_append _ _).trans hd)
      rw [this]
      rfl

/-- the entries reported after `k` was put inside the edge to `q` -/
def Damaged (k q B w : Str) : Prop :=
  if k <+: w then k <+: B ∧ w[q.length]? = B[k.length]? ∧ w.drop q.length <+: B.drop q.length
  else w <+: B

instance (k q B w : Str) : Decidable (Damaged k q B w) := by unfold Damaged; infer_instance

/-- the least node that continues `k` -/
def LeastAbove (nodes : List Str) (k q : Str) : Prop :=
  q ∈ nodes ∧ k <+: q ∧ k ≠ q ∧ ∀ m ∈ nodes, k <+: m → q <+: m

theorem add_inside (uri : Str) : ∀ (t : PNode) (P fs : Str), t ≠ .nil → WF P t → IsBitStr fs →
    (P ≠ [] → t.str ≠ [] ∧ fs ≠ []) →
    InsideEdge (paths P t) (P ++ fs) →
    ∃ q, LeastAbove (paths P t) (P ++ fs) q ∧
      ∀ id : List Byte, id ≠ [] → P <+: bitsOf id → Fits (8 * id.length) P t →
        (t.add fs uri).search id = some (((content P t).filter fun e =>
          decide (Damaged (P ++ fs) q (bitsOf id) e.1)).map Prod.snd)
  | .nil, _, _, h, _, _, _, _ => absurd rfl h
  | .node u f one zero, P, fs, _, hw, hfs, hne, hin => by
    obtain ⟨hbit, hf, hw1, hw0, hh1, hh0⟩ := id hw
    have nonempty1 : one ≠ .nil → one.str ≠ [] := fun h => by
      intro h2; have := hh1 h; simp [h2] at this
    have nonempty0 : zero ≠ .nil → zero.str ≠ [] := fun h => by
      intro h2; have := hh0 h; simp [h2] at this
    -- at this node
    have own : ∀ id : List Byte, id ≠ [] → P <+: bitsOf id → Fits (8 * id.length) P (.node u f one zero) →
        (P.length + f.str.length ≤ 8 * id.length ∧
        f.matchID id = some (decide (P ++ f.str <+: bitsOf id)) ∧
        Fits (8 * id.length) (P ++ f.str) one ∧ Fits (8 * id.length) (P ++ f.str) zero) := by
      intro id hid hP hfit
      have hlen : P.length + f.str.length ≤ 8 * id.length := by
        have := hfit (P ++ f.str) (by simp [paths])
        simpa using this
      have hidl : 0 < id.length := List.length_pos_iff.mpr hid
      have hcov : Covers f.str P.length id := by
        refine ⟨hlen, ?_⟩
        by_cases hp : P = []
        · subst hp; simpa using hidl
        · have := List.length_pos_iff.mpr (hne hp).1
          simp only [str] at this
          omega
      have hm := matchID_prefix hbit hP hcov
      rw [← hf] at hm
      exact ⟨hlen, hm, fun q hq => hfit q (by simp [paths, hq]), fun q hq => hfit q (by simp [paths, hq])⟩
    have hoff : f.offset + f.size = (P ++ f.str).length := by
      rw [hf, newFilter_offset, newFilter_size, List.length_append, newFilter_str]
    have hlong : ∀ (c : Char) (r : Str), fs = f.str ++ c :: r → ¬ P ++ fs <+: P ++ f.str := by
      rintro c r rfl h
      have := h.length_le
      simp at this
      omega
    have side : ∀ (c : Char) (r : Str), fs = f.str ++ c :: r → ∀ (t : PNode) (d : Char), d ≠ c →
        (t ≠ .nil → t.str.head? = some d) → ∀ m ∈ paths (P ++ f.str) t, ¬ P ++ fs <+: m := by
      rintro c r rfl t d hdc ht m hm h
      have h1 := child_prefix ht hm
      rw [← List.append_assoc] at h
      obtain ⟨a, rfl⟩ := h1
      obtain ⟨b, hb⟩ := h
      simp at hb
      exact hdc hb.1.symm
    -- the part of the trie that the addition enters
    have same : ∀ (c : Char) (r : Str), fs = f.str ++ c :: r → ∀ (t : PNode),
        (t ≠ .nil → t.str.head? = some c) → ∀ (B q : Str), B[(P ++ f.str).length]? ≠ some c →
        (content (P ++ f.str) t).filter (fun e => decide (Damaged (P ++ fs) q B e.1)) = [] := by
      intro c r hr t ht B q hB
      rw [List.filter_eq_nil_iff]
      intro e he hd
      have hd := of_decide_eq_true hd
      have htn : t ≠ .nil := by rintro rfl; simp [content] at he
      unfold Damaged at hd
      split at hd
      · apply hB
        have := hd.1
        rw [hr, ← List.append_assoc] at this
        exact next_of_prefix (by rfl) this
      · exact hB (next_of_prefix (ht htn) ((content_prefix t _ e he).trans hd))
    have other : ∀ (c : Char) (r : Str), fs = f.str ++ c :: r → ∀ (t : PNode) (d : Char), d ≠ c →
        (t ≠ .nil → t.str.head? = some d) → ∀ (B q : Str),
        (content (P ++ f.str) t).filter (fun e => decide (Damaged (P ++ fs) q B e.1)) =
        (content (P ++ f.str) t).filter (fun e => decide (e.1 <+: B)) := by
      intro c r hr t d hdc ht B q
      apply List.filter_congr
      intro e he
      rw [decide_eq_decide, Damaged, if_neg (side c r hr t d hdc ht _ (content_paths t _ e he))]
    have huri : ∀ (c : Char) (r : Str), fs = f.str ++ c :: r → ∀ B q : Str, P ++ f.str <+: B →
        (if u.length ≠ 0 then [u] else []) =
          ((if u = [] then [] else [(P ++ f.str, u)]).filter
            fun e => decide (Damaged (P ++ fs) q B e.1)).map Prod.snd := by
      intro c r hr B q hB
      cases u with
      | nil => rfl
      | cons a u => simp [Damaged, hlong c r hr, hB]
    have missed : ∀ (c : Char) (r : Str), fs = f.str ++ c :: r → ∀ B q : Str, ¬ P ++ f.str <+: B →
        (content P (.node u f one zero)).filter (fun e => decide (Damaged (P ++ fs) q B e.1)) = [] := by
      intro c r hr B q hB
      rw [List.filter_eq_nil_iff]
      intro e he hd
      have hd := of_decide_eq_true hd
      unfold Damaged at hd
      split at hd
      · apply hB
        refine List.IsPrefix.trans ?_ hd.1
        rw [hr, ← List.append_assoc]
        exact List.prefix_append _ _
      · exact hB ((content_prefix _ P e he).trans hd)
    rcases add_cases u f one zero P fs uri hw hfs with ⟨rfl, -⟩ | ⟨r, hr, hadd⟩ | ⟨r, hr, hadd⟩ |
      ⟨n, r, s, hr, hs, -⟩ | ⟨n, r, s, hr, hs, -⟩ | ⟨h1, h2, hadd⟩
    · exact absurd (by simp [paths]) hin.1
    · have hin' : ∀ m ∈ paths P (.node u f one zero), P ++ fs <+: m → m ∈ paths (P ++ f.str) one := by
        intro m hm hp
        simp only [paths, List.mem_cons, List.mem_append] at hm
        rcases hm with rfl | h | h
        · exact absurd hp (hlong '1' r hr)
        · exact h
        · exact absurd hp (side '1' r hr zero '0' (by decide) hh0 m h)
      have hmem : ∀ m ∈ paths (P ++ f.str) one, m ∈ paths P (.node u f one zero) := by
        intro m h
        simp only [paths, List.mem_cons, List.mem_append]
        exact Or.inr (Or.inl h)
      have hkk : P ++ fs = (P ++ f.str) ++ '1' :: r := by rw [hr, List.append_assoc]
      obtain ⟨hk, m0, hm0, hp0⟩ := hin
      have hone : one ≠ .nil := by
        intro h
        have := hin' m0 hm0 hp0
        rw [h] at this
        simp [paths] at this
      have ih := add_inside uri one (P ++ f.str) ('1' :: r) hone hw1 (hr ▸ hfs).of_append_right
        (fun _ => ⟨nonempty1 hone, by simp⟩)
        ⟨fun h => hk (hmem _ (hkk ▸ h)), m0, hin' m0 hm0 hp0, hkk ▸ hp0⟩
      rw [← hkk] at ih
      obtain ⟨q, ⟨hq1, hq2, hq3, hq4⟩, ih2⟩ := ih
      refine ⟨q, ⟨hmem q hq1, hq2, hq3, fun m hm hp => hq4 m (hin' m hm hp) hp⟩, ?_⟩
      intro id hid hP hfit
      obtain ⟨hlen, hm, fit1, fit0⟩ := own id hid hP hfit
      have hlt : (P ++ f.str).length < 8 * id.length := by
        have h1 := fit1 q hq1
        have h2 := hq2.length_le
        rw [hr] at h2
        simp at h2 ⊢
        omega
      have hab : addBelow one ('1' :: r) uri (P ++ f.str).length = one.add ('1' :: r) uri := by
        unfold addBelow
        cases h : one with
        | nil => exact absurd h hone
        | node => rfl
      have hane : one.add ('1' :: r) uri ≠ .nil := add_ne_nil _ _ _ hone
      rw [hadd, hab]
      simp only [PNode.search, hm]
      by_cases hpre : P ++ f.str <+: bitsOf id
      · simp only [hpre, decide_true]
        rw [hoff, content, List.filter_append, List.filter_append, List.map_append, List.map_append,
          ← huri '1' r hr _ q hpre]
        rw [other '1' r hr zero '0' (by decide) hh0]
        obtain ⟨-, -, -, hnone⟩ := C08_getNextBit id (P ++ f.str).length
        cases hnb : getNextBit id (P ++ f.str).length with
        | none => exact absurd (hnone.mp hnb) (by omega)
        | some nb =>
          simp only
          have hnb1 : nb = '1' ↔ (bitsOf id)[(P ++ f.str).length]? = some '1' := by
            rw [← getNextBit_bits '1' (Or.inl rfl), hnb]; simp
          have hnb0 : nb = '0' ↔ (bitsOf id)[(P ++ f.str).length]? = some '0' := by
            rw [← getNextBit_bits '0' (Or.inr rfl), hnb]; simp
          by_cases h1 : nb = '1'
          · rw [if_pos ⟨h1, hane⟩, ih2 id hid hpre fit1,
              filter_content_nil hh0 (fun h => by have := hnb0.mpr h; subst h1; revert this; decide)]
            simp
          · rw [if_neg (fun h => h1 h.1), same '1' r hr one hh1 _ _ (fun h => h1 (hnb1.mpr h))]
            by_cases h0 : nb = '0' ∧ zero ≠ .nil
            · rw [if_pos h0, search_wf id hid zero _ h0.2 hw0 (fun _ => nonempty0 h0.2) hpre fit0]
              simp
            · rw [if_neg h0]
              by_cases hzn : zero = .nil
              · subst hzn; simp [content]
              · rw [filter_content_nil hh0 (fun h => h0 ⟨hnb0.mpr h, hzn⟩)]
                simp
      · simp only [hpre, decide_false]
        rw [missed '1' r hr _ _ hpre]
        rfl
    · have hin' : ∀ m ∈ paths P (.node u f one zero), P ++ fs <+: m → m ∈ paths (P ++ f.str) zero := by
        intro m hm hp
        simp only [paths, List.mem_cons, List.mem_append] at hm
        rcases hm with rfl | h | h
        · exact absurd hp (hlong '0' r hr)
        · exact absurd hp (side '0' r hr one '1' (by decide) hh1 m h)
        · exact h
      have hmem : ∀ m ∈ paths (P ++ f.str) zero, m ∈ paths P (.node u f one zero) := by
        intro m h
        simp only [paths, List.mem_cons, List.mem_append]
        exact Or.inr (Or.inr h)
      have hkk : P ++ fs = (P ++ f.str) ++ '0' :: r := by rw [hr, List.append_assoc]
      obtain ⟨hk, m0, hm0, hp0⟩ := hin
      have hone : zero ≠ .nil := by
        intro h
        have := hin' m0 hm0 hp0
        rw [h] at this
        simp [paths] at this
      have ih := add_inside uri zero (P ++ f.str) ('0' :: r) hone hw0 (hr ▸ hfs).of_append_right
        (fun _ => ⟨nonempty0 hone, by simp⟩)
        ⟨fun h => hk (hmem _ (hkk ▸ h)), m0, hin' m0 hm0 hp0, hkk ▸ hp0⟩
      rw [← hkk] at ih
      obtain ⟨q, ⟨hq1, hq2, hq3, hq4⟩, ih2⟩ := ih
      refine ⟨q, ⟨hmem q hq1, hq2, hq3, fun m hm hp => hq4 m (hin' m hm hp) hp⟩, ?_⟩
      intro id hid hP hfit
      obtain ⟨hlen, hm, fit1, fit0⟩ := own id hid hP hfit
      have hlt : (P ++ f.str).length < 8 * id.length := by
        have h1 := fit0 q hq1
        have h2 := hq2.length_le
        rw [hr] at h2
        simp at h2 ⊢
        omega
      have hab : addBelow zero ('0' :: r) uri (P ++ f.str).length = zero.add ('0' :: r) uri := by
        unfold addBelow
        cases h : zero with
        | nil => exact absurd h hone
        | node => rfl
      have hane : zero.add ('0' :: r) uri ≠ .nil := add_ne_nil _ _ _ hone
      rw [hadd, hab]
      simp only [PNode.search, hm]
      by_cases hpre : P ++ f.str <+: bitsOf id
      · simp only [hpre, decide_true]
        rw [hoff, content, List.filter_append, List.filter_append, List.map_append, List.map_append,
          ← huri '0' r hr _ q hpre]
        rw [other '0' r hr one '1' (by decide) hh1]
        obtain ⟨-, -, -, hnone⟩ := C08_getNextBit id (P ++ f.str).length
        cases hnb : getNextBit id (P ++ f.str).length with
        | none => exact absurd (hnone.mp hnb) (by omega)
        | some nb =>
          simp only
          have hnb1 : nb = '1' ↔ (bitsOf id)[(P ++ f.str).length]? = some '1' := by
            rw [← getNextBit_bits '1' (Or.inl rfl), hnb]; simp
          have hnb0 : nb = '0' ↔ (bitsOf id)[(P ++ f.str).length]? = some '0' := by
            rw [← getNextBit_bits '0' (Or.inr rfl), hnb]; simp
          by_cases h1 : nb = '1'
          · rw [same '0' r hr zero hh0 _ _ (fun h => by have := hnb0.mpr h; subst h1; revert this; decide)]
            by_cases ho : one = .nil
            · subst ho; subst h1
              simp [content]
            · rw [if_pos ⟨h1, ho⟩, search_wf id hid one _ ho hw1 (fun _ => nonempty1 ho) hpre fit1]
              simp
          · rw [if_neg (fun h => h1 h.1), filter_content_nil hh1 (fun h => h1 (hnb1.mpr h))]
            by_cases h0 : nb = '0'
            · rw [if_pos ⟨h0, hane⟩, ih2 id hid hpre fit0]
              simp
            · rw [if_neg (fun h => h0 h.1), same '0' r hr zero hh0 _ _ (fun h => h0 (hnb0.mpr h))]
              simp
      · simp only [hpre, decide_false]
        rw [missed '0' r hr _ _ hpre]
        rfl
    · exfalso
      obtain ⟨-, m, hm, hp⟩ := hin
      have h1 := paths_prefix _ P m hm
      simp only [str] at h1
      rw [hs] at h1
      rw [hr] at hp
      obtain ⟨a, rfl⟩ := h1
      obtain ⟨b, hb⟩ := hp
      simp at hb
    · exfalso
      obtain ⟨-, m, hm, hp⟩ := hin
      have h1 := paths_prefix _ P m hm
      simp only [str] at h1
      rw [hs] at h1
      rw [hr] at hp
      obtain ⟨a, rfl⟩ := h1
      obtain ⟨b, hb⟩ := hp
      simp at hb
    · refine ⟨P ++ f.str, ⟨by simp [paths], (List.prefix_append_right_inj P).mpr h1,
        fun h => h2 (List.append_cancel_left h), ?_⟩, ?_⟩
      · intro m hm _
        simpa [str] using paths_prefix _ P m hm
      intro id hid hP hfit
      obtain ⟨hlen, -, fit1, fit0⟩ := own id hid hP hfit
      have hlt : fs.length < f.str.length := by
        apply Nat.lt_of_le_of_ne h1.length_le
        intro h
        exact h2 (h1.eq_of_length h)
      have hm : (newFilter fs P.length).matchID id = some (decide (P ++ fs <+: bitsOf id)) :=
        matchID_prefix hfs hP ⟨by omega, by omega⟩
      rw [hadd]
      simp only [PNode.search, hm]
      -- the entries below the node, seen from the place of the new filter
      have below : ∀ (t : PNode) (c : Char), (t ≠ .nil → t.str.head? = some c) →
          ∀ e ∈ content (P ++ f.str) t, (Damaged (P ++ fs) (P ++ f.str) (bitsOf id) e.1 ↔
            P ++ fs <+: bitsOf id ∧ (bitsOf id)[(P ++ fs).length]? = some c ∧
              e.1.drop (P ++ f.str).length <+: (bitsOf id).drop (P ++ f.str).length) := by
        intro t c ht e he
        have htn : t ≠ .nil := by rintro rfl; simp [content] at he
        have hpe := content_prefix t _ e he
        have hk : P ++ fs <+: e.1 := ((List.prefix_append_right_inj P).mpr h1).trans
          ((List.prefix_append _ _).trans hpe)
        rw [Damaged, if_pos hk, next_of_prefix (ht htn) hpe, eq_comm (a := some c)]
      have huri : ((if u = [] then [] else [(P ++ f.str, u)]).filter
            fun e => decide (Damaged (P ++ fs) (P ++ f.str) (bitsOf id) e.1)) = [] := by
        rw [List.filter_eq_nil_iff]
        intro e he hd
        have hd := of_decide_eq_true hd
        split at he
        · simp at he
        · simp at he
          subst he
          rw [Damaged, if_pos ((List.prefix_append_right_inj P).mpr h1)] at hd
          have := hd.2.1
          rw [List.getElem?_eq_none (Nat.le_refl _), eq_comm, List.getElem?_eq_none_iff, length_bitsOf] at this
          simp at this
          omega
      have nothing : ∀ (t : PNode) (c : Char), (t ≠ .nil → t.str.head? = some c) →
          ¬ (P ++ fs <+: bitsOf id ∧ (bitsOf id)[(P ++ fs).length]? = some c) →
          (content (P ++ f.str) t).filter
            (fun e => decide (Damaged (P ++ fs) (P ++ f.str) (bitsOf id) e.1)) = [] := by
        intro t c ht hn
        rw [List.filter_eq_nil_iff]
        intro e he hd
        have := (below t c ht e he).mp (of_decide_eq_true hd)
        exact hn ⟨this.1, this.2.1⟩
      have found : ∀ (t : PNode) (c : Char), (t ≠ .nil → t.str.head? = some c) →
          P ++ fs <+: bitsOf id → (bitsOf id)[(P ++ fs).length]? = some c →
          (content (P ++ f.str) t).filter
            (fun e => decide (Damaged (P ++ fs) (P ++ f.str) (bitsOf id) e.1)) =
          (content (P ++ f.str) t).filter (fun e =>
            decide (e.1.drop (P ++ f.str).length <+: (bitsOf id).drop (P ++ f.str).length)) := by
        intro t c ht g1 g2
        apply List.filter_congr
        intro e he
        rw [decide_eq_decide, below t c ht e he]
        exact ⟨fun h => h.2.2, fun h => ⟨g1, g2, h⟩⟩
      rw [content, List.filter_append, List.filter_append, huri]
      by_cases hpre : P ++ fs <+: bitsOf id
      · simp only [hpre, decide_true]
        have hoff' : (newFilter fs P.length).offset + (newFilter fs P.length).size = (P ++ fs).length := by
          rw [newFilter_offset, newFilter_size, List.length_append]
        rw [hoff']
        obtain ⟨-, -, -, hnone⟩ := C08_getNextBit id (P ++ fs).length
        cases hnb : getNextBit id (P ++ fs).length with
        | none => exact absurd (hnone.mp hnb) (by simp; omega)
        | some nb =>
          simp only
          have hnb1 : nb = '1' ↔ (bitsOf id)[(P ++ fs).length]? = some '1' := by
            rw [← getNextBit_bits '1' (Or.inl rfl), hnb]; simp
          have hnb0 : nb = '0' ↔ (bitsOf id)[(P ++ fs).length]? = some '0' := by
            rw [← getNextBit_bits '0' (Or.inr rfl), hnb]; simp
          by_cases h1 : nb = '1'
          · rw [nothing zero '0' hh0 (fun h => by have := hnb0.mpr h.2; subst h1; revert this; decide)]
            by_cases ho : one = .nil
            · subst h1; subst ho
              simp [content]
            · rw [if_pos ⟨h1, ho⟩, found one '1' hh1 hpre (hnb1.mp h1),
                search_rel id hid one _ ho hw1 (fun _ => nonempty1 ho) fit1]
              simp
          · rw [nothing one '1' hh1 (fun h => h1 (hnb1.mpr h.2)), if_neg (fun h => h1 h.1)]
            by_cases h0 : nb = '0' ∧ zero ≠ .nil
            · rw [if_pos h0, found zero '0' hh0 hpre (hnb0.mp h0.1),
                search_rel id hid zero _ h0.2 hw0 (fun _ => nonempty0 h0.2) fit0]
              simp
            · rw [if_neg h0]
              by_cases hzn : zero = .nil
              · subst hzn; simp [content]
              · rw [nothing zero '0' hh0 (fun h => h0 ⟨hnb0.mpr h.2, hzn⟩)]
                simp
      · simp only [hpre, decide_false]
        rw [nothing one '1' hh1 (fun h => hpre h.1), nothing zero '0' hh0 (fun h => hpre h.1)]
        rfl
termination_by t => t

/-! ### a trie and its view -/

theorem shows_search {t : PNode} {v : TrieView} (h : Shows t v) (id : List Byte) (hid : id ≠ [])
    (hc : ∀ n ∈ v.nodes, n.length ≤ 8 * id.length) :
    ∃ uris, ReportsOf v.stored id uris ∧ t.search id = some uris := by
  obtain ⟨h1, h2, h3, h4⟩ := h
  refine ⟨_, ⟨_, content_ascending (bitsOf id) _ [] h2, ?_, rfl⟩, ?_⟩
  · intro k u; rw [List.mem_filter, decide_eq_true_iff, h3]
  · exact search_wf id hid t [] h1 h2 (fun h => absurd rfl h) List.nil_prefix
      fun q hq => hc q ((h4 q).mp hq)

theorem shows_inside {t : PNode} {v : TrieView} (h : Shows t v) (k uri : Str) (hk : IsBitStr k)
    (hi : InsideEdge v.nodes k) :
    ∃ q, LeastAbove v.nodes k q ∧ ∀ id : List Byte, id ≠ [] →
      (∀ n ∈ v.nodes, n.length ≤ 8 * id.length) →
      ∃ uris, ReportsDamaged v.stored k q id uris ∧ (t.add k uri).search id = some uris := by
  obtain ⟨h1, h2, h3, h4⟩ := h
  obtain ⟨q, hq, hs⟩ := add_inside uri t [] k h1 h2 hk (fun h => absurd rfl h)
    ⟨fun h => hi.1 ((h4 _).mp h), by
      obtain ⟨n, hn, hp⟩ := hi.2
      exact ⟨n, (h4 n).mpr hn, hp⟩⟩
  refine ⟨q, ⟨(h4 q).mp hq.1, hq.2.1, hq.2.2.1, fun m hm => hq.2.2.2 m ((h4 m).mpr hm)⟩, ?_⟩
  intro id hid hc
  have hs := hs id hid List.nil_prefix fun m hm => hc m ((h4 m).mp hm)
  rw [List.nil_append] at hs
  refine ⟨_, ⟨_, ?_, ?_, rfl⟩, hs⟩
  · -- all reported filters lie on one line
    have : ∃ B, ∀ w, (∃ u, (w, u) ∈ content [] t) → Damaged k q (bitsOf id) w → w <+: B := by
      by_cases hkB : k <+: bitsOf id
      · refine ⟨q ++ (bitsOf id).drop q.length, ?_⟩
        rintro w ⟨u, hw⟩ hd
        unfold Damaged at hd
        split at hd
        · rename_i hkw
          obtain ⟨r, rfl⟩ := hq.2.2.2 w (content_paths t [] _ hw) hkw
          have := hd.2.2
          rw [List.drop_left] at this
          exact (List.prefix_append_right_inj q).mpr this
        · rename_i hkw
          have hwk : w <+: k := by
            rcases List.prefix_or_prefix_of_prefix hd hkB with h | h
            · exact h
            · exact absurd h hkw
          exact (hwk.trans hq.2.1).trans (List.prefix_append _ _)
      · refine ⟨bitsOf id, fun w _ hd => ?_⟩
        unfold Damaged at hd
        split at hd
        · exact absurd hd.1 hkB
        · exact hd
    obtain ⟨B, hB⟩ := this
    have hp := content_ascending B t [] h2
    have hsub : (content [] t).filter (fun e => decide (Damaged k q (bitsOf id) e.1)) =
        ((content [] t).filter fun e => decide (e.1 <+: B)).filter
          (fun e => decide (Damaged k q (bitsOf id) e.1)) := by
      rw [List.filter_filter]
      apply List.filter_congr
      intro e he
      cases hd : decide (Damaged k q (bitsOf id) e.1) with
      | false => rfl
      | true => simp [hB e.1 ⟨e.2, he⟩ (of_decide_eq_true hd)]
    rw [hsub]
    exact hp.sublist (List.filter_sublist.map _)
  · intro w u
    rw [List.mem_filter, decide_eq_true_iff, h3]
    rfl

/-! ### histories -/

/-- a call for one filter on the trie -/
def PNode.applyKey (t : PNode) : KeyOp → PNode
  | .add k uri => t.add k uri
  | .delete k => t.delete k

theorem applyOp_keys (mk : Encoder) (t : PNode) (op : SubsOp) :
    t.applyOp mk op = (keyOps mk op).foldl PNode.applyKey t := by
  cases op with
  | add s => simp only [PNode.applyOp, PNode.addSubscription, keyOps, List.foldl_map, PNode.applyKey]
  | delete s =>
    simp only [PNode.applyOp, PNode.deleteSubscription, keyOps, List.foldl_map, PNode.applyKey]

theorem applyOps_keys (mk : Encoder) (ops : List SubsOp) (t : PNode) :
    ops.foldl (PNode.applyOp mk) t = (ops.flatMap (keyOps mk)).foldl PNode.applyKey t := by
  induction ops generalizing t with
  | nil => rfl
  | cons op ops ih => rw [List.foldl_cons, ih, List.flatMap_cons, List.foldl_append, applyOp_keys]

theorem shows_ops : ∀ (ops : List KeyOp) {t : PNode} {v : TrieView}, Shows t v → Intact v ops →
    Shows (ops.foldl PNode.applyKey t) (ops.foldl TrieView.step v)
  | [], _, _, h, _ => h
  | .add k uri :: ops, t, v, h, hi => by
    obtain ⟨h1, h2, h3, h4⟩ := hi
    exact shows_ops ops (shows_add h k uri h1 h2 h3) h4
  | .delete k :: ops, t, v, h, hi => by
    obtain ⟨h1, h2⟩ := hi
    exact shows_ops ops (shows_delete h k h1) h2

theorem shows_history (mk : Encoder) (sub : Subs) (ops : List SubsOp) (hu : UrisNonEmpty sub)
    (hb : ∀ k u, (k, u) ∈ toByteSubscriptions mk sub → IsBitStr k)
    (hi : Intact (freshView mk sub) (ops.flatMap (keyOps mk))) :
    Shows (ops.foldl (PNode.applyOp mk) (newPatricia mk sub))
      ((ops.flatMap (keyOps mk)).foldl TrieView.step (freshView mk sub)) := by
  rw [applyOps_keys]
  exact shows_ops _ (shows_fresh mk sub hu hb) hi

theorem paths_bits : ∀ (t : PNode) (P : Str), IsBitStr P → WF P t → ∀ q ∈ paths P t, IsBitStr q
  | .nil, _, _, _, q, h => by simp [paths] at h
  | .node u f one zero, P, hP, ⟨hbit, _, hw1, hw0, _, _⟩, q, h => by
    simp only [paths, List.mem_cons, List.mem_append] at h
    rcases h with rfl | h | h
    · exact hP.append hbit
    · exact paths_bits one _ (hP.append hbit) hw1 q h
    · exact paths_bits zero _ (hP.append hbit) hw0 q h

theorem shows_bits {t : PNode} {v : TrieView} (h : Shows t v) : ∀ n ∈ v.nodes, IsBitStr n :=
  fun n hn => paths_bits t [] (by intro c hc; simp at hc) h.2.1 n ((h.2.2.2 n).mpr hn)

theorem shows_stored {t : PNode} {v : TrieView} (h : Shows t v) {k u : Str} (hk : v.stored k = some u) :
    k ∈ v.nodes := (h.2.2.2 k).mp (content_paths t [] (k, u) ((h.2.2.1 k u).mpr hk))

/-- an ID that shows the damage -/
theorem inside_witness {t : PNode} {v : TrieView} (h : Shows t v) (k uri : Str) (hk : IsBitStr k)
    (hi : InsideEdge v.nodes k) :
    ∃ id : List Byte, id ≠ [] ∧ (∀ n ∈ k :: v.nodes, n.length ≤ 8 * id.length) ∧
      ¬ ∃ uris, ReportsOf (fun k' => if k' = k then some uri else v.stored k') id uris ∧
        (t.add k uri).search id = some uris := by
  obtain ⟨q, ⟨hq1, hq2, hq3, hq4⟩, hs⟩ := shows_inside h k uri hk hi
  obtain ⟨n, hn⟩ := length_bound (k :: v.nodes)
  obtain ⟨b, r, rfl⟩ := proper_prefix_cases hq2 (fun h => hq3 h.symm)
  have hqb := shows_bits h _ hq1
  -- the opposite bit
  obtain ⟨d, hd, hdb⟩ : ∃ d : Char, (d = '0' ∨ d = '1') ∧ d ≠ b := by
    rcases hqb b (by simp) with rfl | rfl
    · exact ⟨'1', by decide, by decide⟩
    · exact ⟨'0', by decide, by decide⟩
  have hln := hn _ (List.mem_cons_of_mem _ hq1)
  obtain ⟨m, hm⟩ : ∃ m, m = 8 * (n + 1) - (k ++ b :: r).length := ⟨_, rfl⟩
  have hlen : (k ++ List.replicate (b :: r).length d ++ List.replicate m b).length = 8 * (n + 1) := by
    simp at hm hln ⊢
    omega
  obtain ⟨id, hidl, hbits⟩ := exists_id (n + 1) (by omega) hlen (by
    intro c hc
    simp only [List.mem_append, List.mem_replicate] at hc
    rcases hc with (hc | hc) | hc
    · exact hk c hc
    · rw [hc.2]; exact hd
    · rw [hc.2]; exact hqb b (by simp))
  refine ⟨id, by rintro rfl; simp at hidl, fun w hw => by have := hn w hw; omega, ?_⟩
  rintro ⟨uris, ⟨hits, hasc, hmem, rfl⟩, hsearch⟩
  obtain ⟨uris', ⟨hits', hasc', hmem', rfl⟩, hsearch'⟩ := hs id (by rintro rfl; simp at hidl)
    fun w hw => by have := hn w (List.mem_cons_of_mem _ hw); omega
  rw [hsearch] at hsearch'
  injection hsearch' with heq
  have hkB : k <+: bitsOf id := by rw [hbits, List.append_assoc]; exact List.prefix_append _ _
  have hBk : (bitsOf id)[k.length]? = some d := by
    rw [hbits, List.append_assoc, List.getElem?_append_right (Nat.le_refl _)]
    simp [List.replicate_succ]
  have hBq : (bitsOf id).drop (k ++ b :: r).length = List.replicate m b := by
    rw [hbits]
    rw [List.drop_append_of_le_length (by simp), List.drop_of_length_le (by simp)]
    rfl
  have nodup : ∀ {l : List Str}, l.Pairwise (· < ·) → l.Nodup := fun hl =>
    hl.imp fun h => by rintro rfl; exact List.lt_irrefl _ h
  -- what is reported is owed, and is not the new filter
  have key : ∀ e ∈ hits', e.1 ≠ k ∧ e.1 ∈ hits.map Prod.fst := by
    rintro ⟨w, u⟩ he
    obtain ⟨hst, hdam⟩ := (hmem' w u).mp he
    have hwn := shows_stored h hst
    have hne : w ≠ k := fun e => hi.1 (e ▸ hwn)
    refine ⟨hne, List.mem_map.mpr ⟨(w, u), ?_, rfl⟩⟩
    rw [hmem]
    refine ⟨(if_neg hne).trans hst, ?_⟩
    split at hdam
    · rename_i hkw
      exfalso
      obtain ⟨-, g1, g2⟩ := hdam
      rw [hBk] at g1
      rw [hBq] at g2
      have : d ∈ w.drop (k ++ b :: r).length := by
        apply List.mem_of_getElem? (i := 0)
        rw [List.getElem?_drop, Nat.add_zero]
        exact g1
      exact hdb (List.mem_replicate.mp (g2.subset this)).2
    · exact hdam
  have hk1 : k ∈ hits.map Prod.fst :=
    List.mem_map.mpr ⟨(k, uri), (hmem k uri).mpr ⟨by simp, hkB⟩, rfl⟩
  have hnd : (k :: hits'.map Prod.fst).Nodup := by
    rw [List.nodup_cons]
    refine ⟨?_, nodup hasc'⟩
    intro h
    obtain ⟨e, he, hek⟩ := List.mem_map.mp h
    exact (key e he).1 hek
  have hsub : k :: hits'.map Prod.fst ⊆ hits.map Prod.fst := by
    intro w hw
    rcases List.mem_cons.mp hw with rfl | hw
    · exact hk1
    · obtain ⟨e, he, rfl⟩ := List.mem_map.mp hw
      exact (key e he).2
  have l1 := List.Nodup.length_le_of_subset hnd hsub
  have l2 := congrArg List.length heq
  simp at l1 l2
  omega

/-- an ID that shows that the last filter stays -/
theorem last_witness {t : PNode} {v : TrieView} (h : Shows t v) (k u : Str) (hst : v.stored k = some u)
    (hall : ∀ n ∈ v.nodes, n = k) :
    ∃ id : List Byte, id ≠ [] ∧ (∀ n ∈ v.nodes, n.length ≤ 8 * id.length) ∧
      ¬ ∃ uris, ReportsOf (fun k' => if k' = k then none else v.stored k') id uris ∧
        (t.delete k).search id = some uris := by
  have hkn := shows_stored h hst
  have hkb := shows_bits h k hkn
  have hlen : (k ++ List.replicate (8 * (k.length + 1) - k.length) '0').length = 8 * (k.length + 1) := by
    simp; omega
  obtain ⟨id, hidl, hbits⟩ := exists_id (k.length + 1) (by omega) hlen (hkb.append (by
    intro c hc; rw [(List.mem_replicate.mp hc).2]; decide))
  have hid : id ≠ [] := by rintro rfl; simp at hidl
  have hc : ∀ n ∈ v.nodes, n.length ≤ 8 * id.length := fun n hn => by rw [hall n hn]; omega
  refine ⟨id, hid, hc, ?_⟩
  rintro ⟨uris, ⟨hits, hasc, hmem, rfl⟩, hsearch⟩
  have hsd := shows_delete h k hkb
  have hv : v.step (.delete k) = v := by
    unfold TrieView.step
    dsimp only
    rw [if_pos hall]
  rw [hv] at hsd
  obtain ⟨uris', ⟨hits', -, hmem', rfl⟩, hsearch'⟩ := shows_search hsd id hid hc
  rw [hsearch] at hsearch'
  injection hsearch' with heq
  have hin : (k, u) ∈ hits' :=
    (hmem' k u).mpr ⟨hst, by rw [hbits]; exact List.prefix_append _ _⟩
  have hnil : hits = [] := by
    rw [List.eq_nil_iff_forall_not_mem]
    rintro ⟨w, x⟩ hw
    obtain ⟨g, -⟩ := (hmem w x).mp hw
    dsimp only at g
    split at g
    · simp at g
    · rename_i hne
      exact hne (hall w (shows_stored h g))
  rw [hnil] at heq
  rw [List.map_nil, eq_comm, List.map_eq_nil_iff] at heq
  rw [heq] at hin
  simp at hin

end Gosstrak
