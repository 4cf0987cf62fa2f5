import Verif.Spec.Short
import Verif.Props.Filter
import Verif.Proofs.Patricia
import Verif.Proofs.SplayUpdate
import Verif.Proofs.PatriciaDamage

/-! Searches for tags that are shorter than some filters. -/
namespace Gosstrak

theorem bitsOf_length (id : List Byte) : (bitsOf id).length = 8 * id.length := by
  simp [bitsOf]

theorem bitsOf_nil : bitsOf ([] : List Byte) = [] := rfl

theorem carriesPresent_iff {P k : Str} {id : List Byte} (hk : IsBitStr k) (hP : P <+: bitsOf id)
    (hl : 8 * id.length ≤ P.length + k.length) :
    CarriesPresent k P.length id ↔ bitsOf id <+: P ++ k := by
  obtain ⟨R, hR⟩ := hP
  have hRl : P.length + R.length = 8 * id.length := by
    rw [← bitsOf_length, ← hR, List.length_append]
  have hget : ∀ i, R[i]? = if P.length + i < 8 * id.length then
      some (if idBit id (P.length + i) then '1' else '0') else none := by
    intro i
    rw [← bitsOf_getElem?, ← hR, List.getElem?_append_right (by omega)]
    congr 1; omega
  rw [← hR, List.prefix_append_right_inj, List.prefix_iff_getElem?]
  constructor
  · intro h i hi
    have hik : i < k.length := by omega
    have hg := hget i
    rw [if_pos (by omega), List.getElem?_eq_getElem hi, Option.some.injEq] at hg
    have hc := h i k[i] (List.getElem?_eq_getElem hik)
    rw [List.getElem?_eq_getElem hik, hg]
    have hb := hk k[i] (List.getElem_mem hik)
    rcases hb with hb | hb
    · rw [hb] at hc ⊢
      have := hc (by decide) (by omega)
      cases hx : idBit id (P.length + i) with
      | false => simp
      | true => rw [hx] at this; exact absurd (this.mpr rfl) (by decide)
    · rw [hb] at hc ⊢
      have := (hc (by decide) (by omega)).mp rfl
      rw [this]; simp
  · intro h i c hi hx hin
    have hiR : i < R.length := by omega
    have h1 := h i hiR
    have hg := hget i
    rw [if_pos hin, List.getElem?_eq_getElem hiR, Option.some.injEq] at hg
    rw [hi, Option.some.injEq] at h1
    rw [h1, hg]
    cases idBit id (P.length + i) <;> simp

/-- the filter test in all cases: a panic if the tag ends inside the filter, else whether the filter
    starts the tag -/
theorem matchID_total {P k : Str} {id : List Byte} (hk : IsBitStr k) (hP : P <+: bitsOf id)
    (hne : P = [] ∨ k ≠ []) :
    (newFilter k P.length).matchID id =
      if TagEndsInside id (P ++ k) then none else some (decide (P ++ k <+: bitsOf id)) := by
  have hPl := hP.length_le
  rw [bitsOf_length] at hPl
  by_cases hc : Covers k P.length id
  · rw [matchID_prefix hk hP hc, if_neg]
    rintro ⟨h1, h2⟩
    have := hc.1
    rcases h2 with h2 | rfl
    · exact h2 (h1.eq_of_length_le (by rw [bitsOf_length, List.length_append]; exact this))
    · have := hc.2; simp at this
  · have hlen : 8 * id.length ≤ P.length + k.length := by
      unfold Covers at hc
      by_cases h : P.length + k.length ≤ 8 * id.length
      · have := fun h2 => hc ⟨h, h2⟩
        omega
      · omega
    obtain ⟨h1, h2⟩ := C02_short_id_exact k hk.filterStr P.length id hc
    rw [carriesPresent_iff hk hP hlen] at h1 h2
    by_cases hb : bitsOf id <+: P ++ k
    · rw [h1.mpr hb, if_pos]
      refine ⟨hb, ?_⟩
      by_cases he : bitsOf id = P ++ k
      · right
        have hl := congrArg List.length he
        rw [bitsOf_length, List.length_append] at hl
        have hd : ¬ P.length / 8 < id.length := fun h => hc ⟨by omega, h⟩
        have hk0 : k = [] := List.length_eq_zero_iff.mp (by omega)
        rcases hne with h | h
        · subst h; subst hk0
          exact List.length_eq_zero_iff.mp (by simp at hl; omega)
        · exact absurd hk0 h
      · exact Or.inl he
    · rw [h2.mpr hb, if_neg (fun h => hb h.1)]
      have : ¬ P ++ k <+: bitsOf id := fun h =>
        hb (by
          rw [h.eq_of_length_le (by rw [bitsOf_length, List.length_append]; exact hlen)]
          exact List.prefix_rfl)
      simp [this]

/-! ### List -/

theorem listMatches_any (id : List Byte) : ∀ (l : FlatSubs), (∀ e ∈ l, IsBitStr e.1) →
    ((∃ e ∈ l, TagEndsInside id e.1) → ListEngine.matches (l.map toMatch) id = none) ∧
    ((¬ ∃ e ∈ l, TagEndsInside id e.1) → ListEngine.matches (l.map toMatch) id =
      some ((l.filter fun e => decide (e.1 <+: bitsOf id)).map Prod.snd))
  | [], _ => ⟨by simp, fun _ => rfl⟩
  | e :: l, h => by
    obtain ⟨i1, i2⟩ := listMatches_any id l fun x hx => h x (by simp [hx])
    have hm := matchID_total (P := []) (h e (by simp)) (List.nil_prefix (l := bitsOf id)) (Or.inl rfl)
    simp only [List.length_nil, List.nil_append] at hm
    rw [List.map_cons, toMatch, ListEngine.matches, hm]
    by_cases ht : TagEndsInside id e.1
    · rw [if_pos ht]
      exact ⟨fun _ => rfl, fun hn => absurd ⟨e, by simp, ht⟩ hn⟩
    · rw [if_neg ht]
      constructor
      · rintro ⟨x, hx, hxt⟩
        rcases List.mem_cons.mp hx with rfl | hx
        · exact absurd hxt ht
        · simp only; rw [i1 ⟨x, hx, hxt⟩]; rfl
      · intro hn
        have hn' : ¬ ∃ e ∈ l, TagEndsInside id e.1 := fun ⟨x, hx, hxt⟩ =>
          hn ⟨x, by simp [hx], hxt⟩
        simp only
        rw [i2 hn']
        simp only [Option.map_some, List.filter_cons]
        split <;> rfl

/-! ### Splay tree -/

open SNode in
theorem ssearch_any (id : List Byte) : ∀ (t : SNode) (P : Str) (first : Bool),
    t ≠ .nil → WF P t → (P = [] ∨ ∀ k ∈ chain t, k ≠ []) → P <+: bitsOf id →
    ((∃ e ∈ content P t, TagEndsInside id e.1) → t.splaySearch first id = none) ∧
    ((¬ ∃ e ∈ content P t, TagEndsInside id e.1) → ∃ rest lifted, t.splaySearch first id =
      some (((content P t).filter fun e => decide (e.1 <+: bitsOf id)).map Prod.snd, rest, lifted))
  | .nil, _, _, h, _, _, _ => absurd rfl h
  | .node _ none _ _, _, _, _, h, _, _ => h.elim
  | .node u (some f) m mm, P, first, _, ⟨hbit, hf, ha, hn, hwm, hwmm⟩, hne, hP => by
    have hne' : P = [] ∨ f.str ≠ [] := hne.imp (fun h => h) fun h => h f.str (by simp [chain])
    have hm := matchID_total hbit hP hne'
    rw [← hf] at hm
    rw [splaySearch, hm]
    by_cases ht : TagEndsInside id (P ++ f.str)
    · rw [if_pos ht]
      exact ⟨fun _ => rfl, fun h => absurd ⟨_, by simp [content]; exact Or.inl rfl, ht⟩ h⟩
    · rw [if_neg ht]
      by_cases hpre : P ++ f.str <+: bitsOf id
      · simp only [hpre, decide_true]
        have hrest : ∀ e ∈ content P mm, ¬ TagEndsInside id e.1 := by
          rintro e he ⟨h1, -⟩
          obtain ⟨k, hk, hp⟩ := scontent_chain mm P e he
          rcases prefix_or_prefix (hpre.trans h1) hp with h | h
          · exact (ha k hk).1 ((List.prefix_append_right_inj P).mp h)
          · exact (ha k hk).2 ((List.prefix_append_right_inj P).mp h)
        have hex : (∃ e ∈ content P (.node u (some f) m mm), TagEndsInside id e.1) ↔
            ∃ e ∈ content (P ++ f.str) m, TagEndsInside id e.1 := by
          simp only [content, List.mem_cons, List.mem_append]
          constructor
          · rintro ⟨e, rfl | he | he, h⟩
            · exact absurd h ht
            · exact ⟨e, he, h⟩
            · exact absurd h (hrest e he)
          · rintro ⟨e, he, h⟩; exact ⟨e, Or.inr (Or.inl he), h⟩
        rw [hex, content, List.filter_cons_of_pos (by simpa using hpre), List.filter_append,
          rest_nomatch ha hpre, List.append_nil, List.map_cons]
        by_cases hmn : m = .nil
        · subst hmn
          simp only [if_true, content, List.filter_nil, List.map_nil]
          refine ⟨by simp, fun _ => ?_⟩
          cases first <;> exact ⟨_, _, rfl⟩
        · obtain ⟨i1, i2⟩ := ssearch_any id m (P ++ f.str) true hmn hwm (Or.inr hn) hpre
          simp only [hmn, if_false]
          refine ⟨fun h => by rw [i1 h], fun h => ?_⟩
          obtain ⟨rest, lifted, ih⟩ := i2 h
          simp only [ih]
          cases first <;> exact ⟨_, _, rfl⟩
      · simp only [hpre, decide_false]
        have hsub : ∀ e ∈ content (P ++ f.str) m, ¬ TagEndsInside id e.1 := by
          rintro e he ⟨h1, h2⟩
          obtain ⟨k, -, hp⟩ := scontent_chain m _ e he
          rcases prefix_or_prefix ((List.prefix_append _ _).trans hp) h1 with h | h
          · exact hpre h
          · refine ht ⟨h, ?_⟩
            by_cases he : bitsOf id = P ++ f.str
            · exact absurd (he ▸ List.prefix_rfl) hpre
            · exact Or.inl he
        have hex : (∃ e ∈ content P (.node u (some f) m mm), TagEndsInside id e.1) ↔
            ∃ e ∈ content P mm, TagEndsInside id e.1 := by
          simp only [content, List.mem_cons, List.mem_append]
          constructor
          · rintro ⟨e, rfl | he | he, h⟩
            · exact absurd h ht
            · exact absurd h (hsub e he)
            · exact ⟨e, he, h⟩
          · rintro ⟨e, he, h⟩; exact ⟨e, Or.inr (Or.inr he), h⟩
        rw [hex, content, List.filter_cons_of_neg (by simpa using hpre), List.filter_append,
          sub_nomatch hpre, List.nil_append]
        by_cases hmn : mm = .nil
        · subst hmn
          simp only [if_true, content, List.filter_nil, List.map_nil]
          exact ⟨by simp, fun _ => ⟨_, _, rfl⟩⟩
        · obtain ⟨i1, i2⟩ := ssearch_any id mm P false hmn hwmm
            (hne.imp (fun h => h) fun h k hk => h k (by simp [chain, hk])) hP
          simp only [hmn, if_false]
          refine ⟨fun h => by rw [i1 h], fun h => ?_⟩
          obtain ⟨rest, lifted, ih⟩ := i2 h
          simp only [ih]
          exact ⟨_, _, rfl⟩

/-- a tree that holds the pairs `S`: a panic if the tag ends inside a stored filter, else the reports -/
theorem sstores_any {t : SNode} {S : Str → Str → Prop} (h : SStores t S) (id : List Byte) :
    ((∃ k u, S k u ∧ TagEndsInside id k) → t.search id = none) ∧
    ((¬ ∃ k u, S k u ∧ TagEndsInside id k) →
      ∃ uris t', t.search id = some (uris, t') ∧ ReportsFrom S id uris ∧ (NoForks S → SStores t' S)) := by
  obtain ⟨h1, h2, h3⟩ := h
  obtain ⟨a1, a2⟩ := ssearch_any id t [] true h1 h2 (Or.inl rfl) List.nil_prefix
  have hex : (∃ e ∈ SNode.content [] t, TagEndsInside id e.1) ↔ ∃ k u, S k u ∧ TagEndsInside id k := by
    constructor
    · rintro ⟨e, he, ht⟩; exact ⟨e.1, e.2, (h3 _ _).mp he, ht⟩
    · rintro ⟨k, u, he, ht⟩; exact ⟨(k, u), (h3 _ _).mpr he, ht⟩
  rw [hex] at a1 a2
  refine ⟨fun h => by unfold SNode.search; rw [a1 h], fun h => ?_⟩
  obtain ⟨rest, lifted, hs⟩ := a2 h
  have hs' : t.search id = some (((SNode.content [] t).filter fun e => decide (e.1 <+: bitsOf id)).map
      Prod.snd, lifted.foldl SNode.attach rest) := by
    unfold SNode.search; rw [hs]
  refine ⟨_, _, hs', ⟨_, scontent_ascending (bitsOf id) t [] h2, ?_, rfl⟩, ?_⟩
  · intro k u; rw [List.mem_filter, decide_eq_true_iff, h3]
  · intro hn
    have hthin : SNode.NestedThin t := thin_of_content t [] h2 (by
      intro k a b u v w hk ha hb
      exact hn k a b u v w ((h3 _ _).mp hk) ((h3 _ _).mp ha) ((h3 _ _).mp hb))
    obtain ⟨a1, a2, -, a3⟩ := thin_search_tree h2 hthin hs'
    exact ⟨a1, a2, fun k u => by rw [a3.mem_iff, h3]⟩

/-! ### Patricia trie -/

namespace PNode

/-- (prefix, full filter string) of all nodes -/
def edges : Str → PNode → List (Str × Str)
  | _, .nil => []
  | P, .node _ f one zero =>
    (P, P ++ f.str) :: (edges (P ++ f.str) one ++ edges (P ++ f.str) zero)

/-- the string ends strictly inside the edge -/
def Inside (B : Str) (e : Str × Str) : Prop := e.1 <+: B ∧ e.1 ≠ B ∧ B <+: e.2 ∧ B ≠ e.2

end PNode

open PNode

theorem edges_prefix : ∀ (t : PNode) (P : Str), ∀ e ∈ edges P t, P <+: e.1 ∧ P ++ t.str <+: e.2
  | .nil, P, e, h => by simp [edges] at h
  | .node u f one zero, P, e, h => by
    simp only [edges, List.mem_cons, List.mem_append] at h
    simp only [str]
    rcases h with rfl | h | h
    · exact ⟨List.prefix_rfl, List.prefix_rfl⟩
    · obtain ⟨h1, h2⟩ := edges_prefix one _ e h
      exact ⟨(List.prefix_append _ _).trans h1, (List.prefix_append _ _).trans h2⟩
    · obtain ⟨h1, h2⟩ := edges_prefix zero _ e h
      exact ⟨(List.prefix_append _ _).trans h1, (List.prefix_append _ _).trans h2⟩

/-- an edge below the other bit does not contain the string -/
theorem inside_other {t : PNode} {Q B : Str} {c d : Char} (hs : t ≠ .nil → t.str.head? = some c)
    (hB : B[Q.length]? = some d) (hcd : c ≠ d) : ∀ e ∈ edges Q t, ¬ Inside B e := by
  rintro e he ⟨-, -, h3, -⟩
  have ht : t ≠ .nil := by rintro rfl; simp [edges] at he
  have h1 := next_of_prefix (hs ht) ((edges_prefix t Q e he).2)
  obtain ⟨r, hr⟩ := h3
  have hl : Q.length < B.length := (List.getElem?_eq_some_iff.mp hB).1
  rw [← hr, List.getElem?_append_left hl, hB] at h1
  exact hcd (Option.some.inj h1).symm

theorem search_any (id : List Byte) : ∀ (t : PNode) (P : Str), t ≠ .nil → WF P t →
    (P ≠ [] → t.str ≠ []) → P <+: bitsOf id → P ≠ bitsOf id →
    ((∃ e ∈ edges P t, Inside (bitsOf id) e) → t.search id = none) ∧
    ((¬ ∃ e ∈ edges P t, Inside (bitsOf id) e) → t.search id =
      some (((content P t).filter fun e => decide (e.1 <+: bitsOf id)).map Prod.snd))
  | .nil, _, h, _, _, _, _ => absurd rfl h
  | .node u f one zero, P, _, ⟨hbit, hf, hw1, hw0, hh1, hh0⟩, hne, hP, hPB => by
    have hm := matchID_total hbit hP (by
      by_cases hp : P = []
      · exact Or.inl hp
      · exact Or.inr (hne hp))
    rw [← hf] at hm
    have hid : id ≠ [] := by
      rintro rfl
      exact hPB (List.prefix_nil.mp hP)
    have hiff : TagEndsInside id (P ++ f.str) ↔ Inside (bitsOf id) (P, P ++ f.str) :=
      ⟨fun ⟨h1, h2⟩ => ⟨hP, hPB, h1, h2.resolve_right hid⟩, fun ⟨_, _, h1, h2⟩ => ⟨h1, Or.inl h2⟩⟩
    rw [PNode.search, hm]
    by_cases ht : TagEndsInside id (P ++ f.str)
    · rw [if_pos ht]
      exact ⟨fun _ => rfl, fun h => absurd ⟨(P, P ++ f.str), by simp [edges], hiff.mp ht⟩ h⟩
    · rw [if_neg ht]
      by_cases hpre : P ++ f.str <+: bitsOf id
      · simp only [hpre, decide_true]
        have hoff : f.offset + f.size = (P ++ f.str).length := by
          rw [hf, newFilter_offset, newFilter_size, List.length_append, newFilter_str]
        rw [hoff]
        have huri : (if u.length ≠ 0 then [u] else []) =
            ((if u = [] then [] else [(P ++ f.str, u)]).filter
              fun e => decide (e.1 <+: bitsOf id)).map Prod.snd := by
          cases u with
          | nil => rfl
          | cons a u => simp [hpre]
        have nonempty1 : one ≠ .nil → one.str ≠ [] := fun h => by
          intro h2; have := hh1 h; simp [h2] at this
        have nonempty0 : zero ≠ .nil → zero.str ≠ [] := fun h => by
          intro h2; have := hh0 h; simp [h2] at this
        have hex : (∃ e ∈ edges P (.node u f one zero), Inside (bitsOf id) e) ↔
            (∃ e ∈ edges (P ++ f.str) one, Inside (bitsOf id) e) ∨
            ∃ e ∈ edges (P ++ f.str) zero, Inside (bitsOf id) e := by
          simp only [edges, List.mem_cons, List.mem_append]
          constructor
          · rintro ⟨e, rfl | he | he, h⟩
            · exact absurd (hiff.mpr h) ht
            · exact Or.inl ⟨e, he, h⟩
            · exact Or.inr ⟨e, he, h⟩
          · rintro (⟨e, he, h⟩ | ⟨e, he, h⟩)
            · exact ⟨e, Or.inr (Or.inl he), h⟩
            · exact ⟨e, Or.inr (Or.inr he), h⟩
        rw [hex, content, List.filter_append, List.filter_append, List.map_append, List.map_append,
          ← huri]
        obtain ⟨-, -, -, hnone⟩ := C08_getNextBit id (P ++ f.str).length
        have hlen := hpre.length_le
        rw [bitsOf_length] at hlen
        cases hnb : getNextBit id (P ++ f.str).length with
        | none => exact absurd (hnone.mp hnb) (by omega)
        | some nb =>
          simp only
          have hnb1 : nb = '1' ↔ (bitsOf id)[(P ++ f.str).length]? = some '1' := by
            rw [← getNextBit_bits '1' (Or.inl rfl), hnb]; simp
          have hnb0 : nb = '0' ↔ (bitsOf id)[(P ++ f.str).length]? = some '0' := by
            rw [← getNextBit_bits '0' (Or.inr rfl), hnb]; simp
          by_cases hend : P ++ f.str = bitsOf id
          · -- the tag ends at this node
            have hno : (bitsOf id)[(P ++ f.str).length]? = none := by rw [hend]; simp
            have n1 : nb ≠ '1' := fun h => by have := hnb1.mp h; rw [hno] at this; cases this
            have n0 : nb ≠ '0' := fun h => by have := hnb0.mp h; rw [hno] at this; cases this
            rw [if_neg (fun h => n1 h.1), if_neg (fun h => n0 h.1)]
            rw [filter_content_nil hh1 (by rw [hno]; simp), filter_content_nil hh0 (by rw [hno]; simp)]
            have hbelow : ∀ t : PNode, ¬ ∃ e ∈ edges (P ++ f.str) t, Inside (bitsOf id) e := by
              rintro t ⟨e, he, h1, h2, -⟩
              have := (edges_prefix t _ e he).1
              rw [hend] at this
              exact h2 (h1.eq_of_length (by have := this.length_le; have := h1.length_le; omega))
            refine ⟨fun h => ?_, fun _ => by simp⟩
            rcases h with h | h
            · exact absurd h (hbelow _)
            · exact absurd h (hbelow _)
          · by_cases h1 : nb = '1'
            · have hz : (content (P ++ f.str) zero).filter (fun e => decide (e.1 <+: bitsOf id)) = [] :=
                filter_content_nil hh0 (fun h => by have := hnb0.mpr h; subst h1; revert this; decide)
              have hz2 : ¬ ∃ e ∈ edges (P ++ f.str) zero, Inside (bitsOf id) e := fun ⟨e, he, h⟩ =>
                inside_other hh0 (hnb1.mp h1) (by decide) e he h
              rw [hz]
              by_cases ho : one = .nil
              · subst h1; subst ho
                refine ⟨fun h => ?_, fun _ => by simp [content]⟩
                rcases h with ⟨e, he, -⟩ | h
                · simp [edges] at he
                · exact absurd h hz2
              · obtain ⟨i1, i2⟩ := search_any id one _ ho hw1 (fun _ => nonempty1 ho) hpre hend
                rw [if_pos ⟨h1, ho⟩]
                refine ⟨fun h => ?_, fun h => ?_⟩
                · rw [i1 (h.resolve_right hz2)]; rfl
                · rw [i2 (fun h' => h (Or.inl h'))]; simp
            · have hone : (content (P ++ f.str) one).filter (fun e => decide (e.1 <+: bitsOf id)) = [] :=
                filter_content_nil hh1 (fun h => h1 (hnb1.mpr h))
              rw [hone, if_neg (fun h => h1 h.1)]
              -- the tag goes on, so with a zero
              have h0 : nb = '0' := by
                have hlt : (P ++ f.str).length < 8 * id.length := by
                  rcases Nat.lt_or_ge (P ++ f.str).length (8 * id.length) with h | h
                  · exact h
                  · exact absurd (hpre.eq_of_length_le (by rw [bitsOf_length]; exact h)) hend
                rw [hnb0]
                have hb := bitsOf_getElem? id (P ++ f.str).length
                rw [if_pos hlt] at hb
                have n1 := fun h => h1 (hnb1.mpr h)
                rw [hb] at n1 ⊢
                cases hx : idBit id (P ++ f.str).length with
                | false => simp
                | true => rw [hx] at n1; exact absurd rfl n1
              have hone2 : ¬ ∃ e ∈ edges (P ++ f.str) one, Inside (bitsOf id) e := fun ⟨e, he, h⟩ =>
                inside_other hh1 (hnb0.mp h0) (by decide) e he h
              by_cases hz : zero = .nil
              · rw [if_neg (fun h => h.2 hz)]
                subst hz
                refine ⟨fun h => ?_, fun _ => by simp [content]⟩
                rcases h with h | ⟨e, he, -⟩
                · exact absurd h hone2
                · simp [edges] at he
              · obtain ⟨i1, i2⟩ := search_any id zero _ hz hw0 (fun _ => nonempty0 hz) hpre hend
                rw [if_pos ⟨h0, hz⟩]
                refine ⟨fun h => ?_, fun h => ?_⟩
                · rw [i1 (h.resolve_left hone2)]; rfl
                · rw [i2 (fun h' => h (Or.inr h'))]; simp
      · simp only [hpre, decide_false]
        have hno : ¬ ∃ e ∈ edges P (.node u f one zero), Inside (bitsOf id) e := by
          rintro ⟨e, he, h⟩
          have h2 := (edges_prefix _ P e he).2
          simp only [str] at h2
          obtain ⟨-, -, h3, h4⟩ := h
          rcases prefix_or_prefix h2 h3 with h | h
          · exact hpre h
          · refine ht ⟨h, Or.inl fun he' => hpre (he' ▸ List.prefix_rfl)⟩
        refine ⟨fun h => absurd h hno, fun _ => ?_⟩
        have : (content P (.node u f one zero)).filter (fun e => decide (e.1 <+: bitsOf id)) = [] := by
          rw [List.filter_eq_nil_iff]
          intro e he hd
          exact hpre ((content_prefix _ P e he).trans (of_decide_eq_true hd))
        rw [this]
        rfl

/-! #### the edges of a fresh trie -/

theorem fold_lcp_longest (x : Str) : ∀ (l : List Str) (acc : Str), x <+: acc → (∀ p ∈ l, x <+: p) →
    x <+: l.foldl (fun acc p => if acc.length = 0 then p else lcp [p, acc]) acc
  | [], acc, h, _ => h
  | p :: l, acc, h, hl => by
    rw [List.foldl_cons]
    apply fold_lcp_longest x l
    · split
      · exact hl p (by simp)
      · exact (lcp2_spec p acc).2.2 x (hl p (by simp)) h
    · intro q hq; exact hl q (by simp [hq])

theorem branch_longest (c : Char) (pre : Str) (keys : List Str) (hne : branch c pre keys ≠ []) (x : Str)
    (hx : ∀ p, p.head? = some c → pre ++ p ∈ keys → x <+: p) : x <+: branch c pre keys := by
  unfold branch at hne ⊢
  rw [branch_eq] at hne ⊢
  have hmem := fun p => mem_remainders (c := c) (pre := pre) (keys := keys) (p := p)
  cases hr : remainders c pre keys with
  | nil => rw [hr] at hne; exact absurd rfl hne
  | cons a l =>
    rw [List.foldl_cons]
    simp only [List.length_nil, if_true]
    have hall : ∀ p ∈ a :: l, x <+: p := fun p hp => by
      have := (hmem p).mp (by rw [hr]; exact hp)
      exact hx p this.2 this.1
    exact fold_lcp_longest x l a (hall a (by simp)) fun p hp => hall p (by simp [hp])

/-- the edge from `p` leads to the longest common prefix of the keys that go on with `c` -/
def EdgeOk (keys : List Str) (e : Str × Str) : Prop :=
  ∃ c, e.1 ++ [c] <+: e.2 ∧ (∃ k ∈ keys, e.2 <+: k) ∧ (∀ k ∈ keys, e.1 ++ [c] <+: k → e.2 <+: k) ∧
    ∀ x, (∀ k ∈ keys, e.1 ++ [c] <+: k → x <+: k) → x <+: e.2

theorem build_edges (bsub : FlatSubs) : ∀ (fuel : Nat) (pre : Str) (c : Char),
    ∀ e ∈ edges pre (buildChild bsub fuel pre c), EdgeOk (mapKeys bsub) e := by
  intro fuel
  induction fuel with
  | zero =>
    intro pre c e he
    unfold buildChild at he
    split at he
    · rename_i hb
      simp only [build, edges, List.mem_cons, List.append_nil, List.not_mem_nil, or_false,
        newFilter_str] at he
      subst he
      have hbne : branch c pre (mapKeys bsub) ≠ [] := fun h => hb (by rw [h]; rfl)
      exact edge_of_branch bsub pre c hbne
    · simp [edges] at he
  | succ fuel ih =>
    intro pre c e he
    unfold buildChild at he
    split at he
    · rename_i hb
      simp only [build_succ, edges, List.mem_cons, List.mem_append, newFilter_str] at he
      have hbne : branch c pre (mapKeys bsub) ≠ [] := fun h => hb (by rw [h]; rfl)
      rcases he with rfl | he | he
      · exact edge_of_branch bsub pre c hbne
      · exact ih _ _ e he
      · exact ih _ _ e he
    · simp [edges] at he
where
  edge_of_branch (bsub : FlatSubs) (pre : Str) (c : Char) (hbne : branch c pre (mapKeys bsub) ≠ []) :
      EdgeOk (mapKeys bsub) (pre, pre ++ branch c pre (mapKeys bsub)) := by
    rcases branch_spec c pre (mapKeys bsub) with ⟨hbr, -⟩ | ⟨hhead, hall, p, hp, hpre⟩
    · exact absurd hbr hbne
    have hmax := branch_longest c pre (mapKeys bsub) hbne
    generalize branch c pre (mapKeys bsub) = b at *
    have hcb : ∀ s : Str, s.head? = some c ↔ [c] <+: s := by
      intro s
      cases s with
      | nil => simp
      | cons d s => simp [eq_comm]
    refine ⟨c, ?_, ⟨pre ++ p, hp, (List.prefix_append_right_inj pre).mpr hpre⟩, ?_, ?_⟩
    · exact (List.prefix_append_right_inj pre).mpr ((hcb b).mp hhead)
    · intro k hk hck
      obtain ⟨s, rfl⟩ := (List.prefix_append pre [c]).trans hck
      have hs := (List.prefix_append_right_inj pre).mp hck
      exact (List.prefix_append_right_inj pre).mpr (hall s ((hcb s).mpr hs) hk)
    · intro x hx
      rcases Nat.le_total x.length pre.length with hl | hl
      · have h1 := hx _ hp (((List.prefix_append_right_inj pre).mpr ((hcb b).mp hhead)).trans
          ((List.prefix_append_right_inj pre).mpr hpre))
        exact (List.prefix_of_prefix_length_le h1 (List.prefix_append _ _) hl).trans
          (List.prefix_append _ _)
      · have h1 := hx _ hp (((List.prefix_append_right_inj pre).mpr ((hcb b).mp hhead)).trans
          ((List.prefix_append_right_inj pre).mpr hpre))
        obtain ⟨y, rfl⟩ := List.prefix_of_prefix_length_le (List.prefix_append pre p) h1 hl
        refine (List.prefix_append_right_inj pre).mpr (hmax y fun q hq hk => ?_)
        exact (List.prefix_append_right_inj pre).mp
          (hx _ hk ((List.prefix_append_right_inj pre).mpr ((hcb q).mp hq)))

/-- on the way to a node the string is met inside an edge or at a node -/
theorem edge_on_way {B : Str} : ∀ (t : PNode) (P : Str), ∀ q ∈ paths P t, P <+: B → P ≠ B → B <+: q →
    ∃ e ∈ edges P t, Inside B e ∨ (e.2 = B ∧ e.1 ≠ B)
  | .nil, P, q, h, _, _, _ => by simp [paths] at h
  | .node u f one zero, P, q, h, hP, hPB, hB => by
    by_cases hin : Inside B (P, P ++ f.str)
    · exact ⟨(P, P ++ f.str), by simp [edges], Or.inl hin⟩
    by_cases heq : P ++ f.str = B
    · exact ⟨(P, P ++ f.str), by simp [edges], Or.inr ⟨heq, hPB⟩⟩
    have hq := paths_prefix _ P q h
    simp only [str] at hq
    have hpre : P ++ f.str <+: B := by
      rcases prefix_or_prefix hq hB with h | h
      · exact h
      · exact absurd ⟨hP, hPB, h, fun h' => heq h'.symm⟩ hin
    simp only [paths, List.mem_cons, List.mem_append] at h
    rcases h with rfl | h | h
    · exact absurd (hpre.eq_of_length_le hB.length_le) heq
    · obtain ⟨e, he, h1⟩ := edge_on_way one _ q h hpre heq hB
      exact ⟨e, by simp [edges, he], h1⟩
    · obtain ⟨e, he, h1⟩ := edge_on_way zero _ q h hpre heq hB
      exact ⟨e, by simp [edges, he], h1⟩

theorem edges_paths : ∀ (t : PNode) (P : Str), ∀ e ∈ edges P t, e.2 ∈ paths P t
  | .nil, P, e, h => by simp [edges] at h
  | .node u f one zero, P, e, h => by
    simp only [edges, List.mem_cons, List.mem_append] at h
    simp only [paths, List.mem_cons, List.mem_append]
    rcases h with rfl | h | h
    · exact Or.inl rfl
    · exact Or.inr (Or.inl (edges_paths one _ e h))
    · exact Or.inr (Or.inr (edges_paths zero _ e h))

/-- a node lies inside no edge -/
theorem node_not_inside {B : Str} : ∀ (t : PNode) (P : Str), WF P t → B ∈ paths P t →
    ∀ e ∈ edges P t, ¬ Inside B e
  | .nil, P, _, h => by simp [paths] at h
  | .node u f one zero, P, ⟨_, _, hw1, hw0, hh1, hh0⟩, h => by
    rintro e he hin
    have hpre := paths_prefix _ P B h
    simp only [str] at hpre
    simp only [edges, List.mem_cons, List.mem_append] at he
    simp only [paths, List.mem_cons, List.mem_append] at h
    have next : ∀ {t : PNode} {c : Char}, (t ≠ .nil → t.str.head? = some c) →
        B ∈ paths (P ++ f.str) t → B[(P ++ f.str).length]? = some c := by
      intro t c hs hB
      have ht : t ≠ .nil := by rintro rfl; simp [paths] at hB
      exact next_of_prefix (hs ht) (paths_prefix t _ B hB)
    rcases he with rfl | he | he
    · exact hin.2.2.2 (hin.2.2.1.eq_of_length_le hpre.length_le)
    · rcases h with rfl | h | h
      · have := (edges_prefix one _ e he).1
        exact hin.2.1 (hin.1.eq_of_length_le this.length_le)
      · exact node_not_inside one _ hw1 h e he hin
      · exact inside_other hh1 (next hh0 h) (by decide) e he hin
    · rcases h with rfl | h | h
      · have := (edges_prefix zero _ e he).1
        exact hin.2.1 (hin.1.eq_of_length_le this.length_le)
      · exact inside_other hh0 (next hh1 h) (by decide) e he hin
      · exact node_not_inside zero _ hw0 h e he hin

/-- a trie with the nodes and the map of `v`, for tags of any length -/
theorem shows_any {t : PNode} {v : TrieView} (h : Shows t v) (id : List Byte) :
    (id = [] ∨ InsideEdge v.nodes (bitsOf id) → t.search id = none) ∧
    (id ≠ [] → ¬ InsideEdge v.nodes (bitsOf id) →
      ∃ uris, ReportsOf v.stored id uris ∧ t.search id = some uris) := by
  obtain ⟨h1, h2, h3, h4⟩ := h
  have hBne : id ≠ [] → ([] : Str) ≠ bitsOf id := by
    intro hid h
    have := congrArg List.length h
    rw [bitsOf_length] at this
    have := List.length_pos_iff.mpr hid
    simp at *
    omega
  have hiff : id ≠ [] → ((∃ e ∈ edges [] t, Inside (bitsOf id) e) ↔ InsideEdge v.nodes (bitsOf id)) := by
    intro hid
    constructor
    · rintro ⟨e, he, hin⟩
      refine ⟨fun hn => node_not_inside t [] h2 ((h4 _).mpr hn) e he hin, e.2,
        (h4 _).mp (edges_paths t [] e he), hin.2.2.1⟩
    · rintro ⟨hn, q, hq, hp⟩
      obtain ⟨e, he, hin | ⟨h5, -⟩⟩ := edge_on_way t [] q ((h4 q).mpr hq) List.nil_prefix (hBne hid) hp
      · exact ⟨e, he, hin⟩
      · exact absurd ((h4 _).mp (h5 ▸ edges_paths t [] e he)) hn
  have hs := fun hid : id ≠ [] =>
    search_any id t [] h1 h2 (fun h => absurd rfl h) List.nil_prefix (hBne hid)
  constructor
  · intro h
    by_cases hid : id = []
    · subst hid
      cases t with
      | nil => exact absurd rfl h1
      | node u f one zero =>
        obtain ⟨hbit, hf, -⟩ := h2
        have hm := matchID_total (P := []) hbit (List.nil_prefix (l := bitsOf [])) (Or.inl rfl)
        rw [← hf, if_pos ⟨by rw [bitsOf_nil]; exact List.nil_prefix, Or.inr rfl⟩] at hm
        rw [PNode.search, hm]
    · exact (hs hid).1 ((hiff hid).mpr (h.resolve_left hid))
  · intro hid h
    refine ⟨_, ⟨_, content_ascending (bitsOf id) _ [] h2, ?_, rfl⟩,
      (hs hid).2 fun h' => h ((hiff hid).mp h')⟩
    intro k u; rw [List.mem_filter, decide_eq_true_iff, h3]

theorem prefix_snoc_of_proper {a b : Str} (h : a <+: b) (hne : a ≠ b) : ∃ c, a ++ [c] <+: b := by
  obtain ⟨r, rfl⟩ := h
  cases r with
  | nil => simp at hne
  | cons c r => exact ⟨c, ⟨r, by simp⟩⟩

/-- a fresh trie has an edge the tag ends inside of iff the filters that begin with the tag's bits go
    on with the same bit -/
theorem patricia_inside (bsub : FlatSubs) (hm : IsMap bsub) (hb : ∀ e ∈ bsub, IsBitStr e.1)
    (hu : ∀ e ∈ bsub, e.2 ≠ []) (id : List Byte) (hid : id ≠ []) :
    (∃ e ∈ edges [] (newPatriciaFrom bsub), Inside (bitsOf id) e) ↔ TagEndsOnBranch bsub id := by
  obtain ⟨hw, hstr, hpaths, hcon⟩ := newPatricia_spec bsub hm hb
  have hBne : ([] : Str) ≠ bitsOf id := by
    intro h
    have := congrArg List.length h
    rw [bitsOf_length] at this
    have := List.length_pos_iff.mpr hid
    simp at *
    omega
  have hkey : ∀ k, k ∈ mapKeys bsub ↔ ∃ u, (k, u) ∈ bsub := by
    intro k
    rw [mem_mapKeys]
    constructor
    · intro h; obtain ⟨e, he, rfl⟩ := List.mem_map.mp h; exact ⟨e.2, he⟩
    · rintro ⟨u, h⟩; exact List.mem_map.mpr ⟨_, h, rfl⟩
  have hedges : ∀ e ∈ edges [] (newPatriciaFrom bsub),
      e = ([], lcp (mapKeys bsub)) ∨ EdgeOk (mapKeys bsub) e := by
    intro e he
    unfold newPatriciaFrom at he
    simp only [build_succ, edges, List.mem_cons, List.mem_append, newFilter_str, List.nil_append] at he
    rcases he with he | he | he
    · exact Or.inl he
    · exact Or.inr (build_edges bsub _ _ _ e he)
    · exact Or.inr (build_edges bsub _ _ _ e he)
  constructor
  · rintro ⟨e, he, h1, h2, h3, h4⟩
    obtain ⟨d, hd⟩ := prefix_snoc_of_proper h3 h4
    rcases hedges e he with rfl | ⟨c, g1, ⟨k, hk, g2⟩, g3, -⟩
    · have hne : mapKeys bsub ≠ [] := by
        intro h0
        rw [h0] at h3
        exact hBne (List.prefix_nil.mp h3).symm
      have hl := (lcp_spec (mapKeys bsub) hne).1
      obtain ⟨k, hk⟩ := List.exists_mem_of_ne_nil _ hne
      obtain ⟨u, hu⟩ := (hkey k).mp hk
      exact ⟨d, ⟨k, u, hu, hd.trans (hl k hk)⟩, fun k' u' h _ =>
        hd.trans (hl k' ((hkey k').mpr ⟨u', h⟩))⟩
    · obtain ⟨u, hu⟩ := (hkey k).mp hk
      have hcB : e.1 ++ [c] <+: bitsOf id := by
        obtain ⟨c', hc'⟩ := prefix_snoc_of_proper h1 h2
        have := List.prefix_of_prefix_length_le (hc'.trans h3) g1 (by simp)
        have := this.eq_of_length (by simp)
        rw [← this]; exact hc'
      exact ⟨d, ⟨k, u, hu, hd.trans g2⟩, fun k' u' h hB =>
        hd.trans (g3 k' ((hkey k').mpr ⟨u', h⟩) (hcB.trans hB))⟩
  · rintro ⟨d, ⟨k, u, hk, hdk⟩, hall⟩
    -- the key is a node of the trie
    have hmem : k ∈ paths [] (newPatriciaFrom bsub) := by
      by_cases hr : k = lcp (mapKeys bsub)
      · subst hr
        unfold newPatriciaFrom
        simp [paths, newFilter_str]
      · exact content_paths _ _ (k, u) ((hcon _).mpr ⟨hk, hu _ hk, hr⟩)
    have hBk : bitsOf id <+: k := (List.prefix_append _ _).trans hdk
    obtain ⟨e, he, h | ⟨h1, h2⟩⟩ := edge_on_way _ [] k hmem List.nil_prefix hBne hBk
    · exact ⟨e, he, h⟩
    · exfalso
      have hlen : ¬ bitsOf id ++ [d] <+: bitsOf id := fun h => by
        have := h.length_le
        rw [List.length_append, List.length_singleton] at this
        omega
      rcases hedges e he with rfl | ⟨c, g1, -, g3, g4⟩
      · have hne : mapKeys bsub ≠ [] := List.ne_nil_of_mem ((hkey k).mpr ⟨u, hk⟩)
        obtain ⟨l1, l2⟩ := lcp_spec (mapKeys bsub) hne
        simp only at h1
        apply hlen
        have := l2 (bitsOf id ++ [d]) fun k' hk' => by
          obtain ⟨u', hu'⟩ := (hkey k').mp hk'
          exact hall k' u' hu' (by rw [← h1]; exact l1 k' hk')
        rw [h1] at this
        exact this
      · apply hlen
        have := g4 (bitsOf id ++ [d]) fun k' hk' hc => by
          obtain ⟨u', hu'⟩ := (hkey k').mp hk'
          exact hall k' u' hu' (by rw [← h1]; exact g3 k' hk' hc)
        rw [h1] at this
        exact this

end Gosstrak
