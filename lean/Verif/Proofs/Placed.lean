import Verif.Spec.Placed
import Verif.Proofs.PatriciaDamage

/-! The rows (node, places, URI) of a trie and how calls change them. -/
namespace Gosstrak

open PNode

/-- a node, the places of its characters, its URI -/
abbrev PRow := Str × List Nat × Str

def rowsOf : Str → List Nat → PNode → List PRow
  | _, _, .nil => []
  | P, pl, .node u f one zero =>
    (P ++ f.str, pl ++ List.range' f.offset f.str.length, u) ::
      (rowsOf (P ++ f.str) (pl ++ List.range' f.offset f.str.length) one ++
       rowsOf (P ++ f.str) (pl ++ List.range' f.offset f.str.length) zero)

/-- well-formed up to offsets -/
def Skew : PNode → Prop
  | .nil => True
  | .node _ f one zero =>
    IsBitStr f.str ∧ f = newFilter f.str f.offset ∧ Skew one ∧ Skew zero ∧
    (one ≠ .nil → one.str.head? = some '1') ∧ (zero ≠ .nil → zero.str.head? = some '0')

def offs : PNode → Nat
  | .nil => 0
  | .node _ f _ _ => f.offset

theorem placeAfter_range {pl : List Nat} {o n : Nat} (h : n ≠ 0 ∨ o = placeAfter pl) :
    placeAfter (pl ++ List.range' o n) = o + n := by
  cases n with
  | zero =>
    rcases h with h | h
    · exact absurd rfl h
    · simp [h]
  | succ n =>
    rw [List.range'_concat]
    unfold placeAfter
    rw [← List.append_assoc, List.getLast?_append]
    simp
    omega

/-! ### rows -/

theorem rows_prefix : ∀ (t : PNode) (P : Str) (pl : List Nat), ∀ e ∈ rowsOf P pl t, P ++ t.str <+: e.1
  | .nil, P, pl, e, h => by simp [rowsOf] at h
  | .node u f one zero, P, pl, e, h => by
    simp only [rowsOf, List.mem_cons, List.mem_append] at h
    simp only [str]
    rcases h with rfl | h | h
    · exact List.prefix_rfl
    · exact (List.prefix_append _ _).trans (rows_prefix one _ _ e h)
    · exact (List.prefix_append _ _).trans (rows_prefix zero _ _ e h)

theorem rows_child {P : Str} {pl : List Nat} {t : PNode} {c : Char}
    (ht : t ≠ .nil → t.str.head? = some c) {e : PRow} (he : e ∈ rowsOf P pl t) : P ++ [c] <+: e.1 := by
  have htn : t ≠ .nil := by rintro rfl; simp [rowsOf] at he
  have h := rows_prefix t P pl e he
  have h2 := ht htn
  cases hs : t.str with
  | nil => rw [hs] at h2; simp at h2
  | cons d s =>
    rw [hs] at h h2
    simp at h2
    subst h2
    exact (show P ++ [d] <+: P ++ d :: s from ⟨s, by simp⟩).trans h

theorem rows_length : ∀ (t : PNode) (P : Str) (pl : List Nat), pl.length = P.length →
    ∀ e ∈ rowsOf P pl t, e.2.1.length = e.1.length ∧ pl <+: e.2.1
  | .nil, P, pl, _, e, h => by simp [rowsOf] at h
  | .node u f one zero, P, pl, hl, e, h => by
    simp only [rowsOf, List.mem_cons, List.mem_append] at h
    have hl' : (pl ++ List.range' f.offset f.str.length).length = (P ++ f.str).length := by simp [hl]
    rcases h with rfl | h | h
    · exact ⟨hl', List.prefix_append _ _⟩
    · obtain ⟨a, b⟩ := rows_length one _ _ hl' e h
      exact ⟨a, (List.prefix_append _ _).trans b⟩
    · obtain ⟨a, b⟩ := rows_length zero _ _ hl' e h
      exact ⟨a, (List.prefix_append _ _).trans b⟩

/-- the rows below another prefix -/
theorem rows_shift (P' : Str) (pl' : List Nat) : ∀ (t : PNode) (P : Str) (pl : List Nat) (r : Str) (x : List Nat),
    rowsOf (P' ++ r) (pl' ++ x) t = (rowsOf (P ++ r) (pl ++ x) t).map fun e =>
      (P' ++ e.1.drop P.length, pl' ++ e.2.1.drop pl.length, e.2.2)
  | .nil, _, _, _, _ => by simp [rowsOf]
  | .node u f one zero, P, pl, r, x => by
    simp only [rowsOf, List.map_cons, List.map_append, List.append_assoc]
    rw [rows_shift P' pl' one P pl, rows_shift P' pl' zero P pl]
    simp

/-- the rows of a child are the same when the edge above is cut in two -/
theorem rows_append (P : Str) (pl : List Nat) (a b : Str) (o : Nat) (t : PNode) :
    rowsOf (P ++ a ++ b) (pl ++ List.range' o a.length ++ List.range' (o + a.length) b.length) t =
      rowsOf (P ++ (a ++ b)) (pl ++ List.range' o (a ++ b).length) t := by
  rw [List.append_assoc, List.append_assoc, List.length_append,
    show List.range' o (a.length + b.length) = List.range' o a.length ++ List.range' (o + a.length) b.length from by
      rw [List.range'_append_1]]

/-! ### additions -/

/-- `k` put inside the edge to `q` -/
def squeeze (k q : Str) (e : PRow) : PRow :=
  if q <+: e.1 then (k ++ e.1.drop q.length, e.2.1.take k.length ++ e.2.1.drop q.length,
    if e.1 = q then [] else e.2.2) else e

/-- rows before and after the addition of `k` -/
def AddRows (R R' : List PRow) (k uri : Str) : Prop :=
  (∃ pl u, (k, pl, u) ∈ R ∧ (∀ e ∈ R, e.1 = k → e = (k, pl, u)) ∧
    ∀ e, e ∈ R' ↔ (e ∈ R ∧ e.1 ≠ k) ∨ e = (k, pl, uri)) ∨
  (∃ q pl u, (q, pl, u) ∈ R ∧ k <+: q ∧ k ≠ q ∧ (∀ e ∈ R, k <+: e.1 → q <+: e.1) ∧
    ∀ e, e ∈ R' ↔ ∃ e0 ∈ R, e = squeeze k q e0) ∨
  (∃ c q l u, c <+: k ∧ c ≠ k ∧ (q, l, u) ∈ R ∧ c <+: q ∧ (∀ e ∈ R, c <+: e.1 → q <+: e.1) ∧
    (∀ e ∈ R, meet k e.1 <+: c) ∧
    ∀ e, e ∈ R' ↔ e ∈ R ∨ e = (k, l.take c.length ++
        List.range' (placeAfter (l.take c.length)) (k.length - c.length), uri) ∨
      (e = (c, l.take c.length, []) ∧ ∀ e0 ∈ R, e0.1 ≠ c))

theorem prefix_comparable {a b k : Str} (ha : a <+: k) (hb : b <+: k) : a <+: b ∨ b <+: a := by
  rcases Nat.le_total a.length b.length with h | h
  · exact Or.inl (List.prefix_of_prefix_length_le ha hb h)
  · exact Or.inr (List.prefix_of_prefix_length_le hb ha h)

theorem AddRows.lift {R R' T T' : List PRow} {k uri Q : Str} {c : Char} (S : PRow → Prop)
    (h : AddRows R R' k uri) (hk : Q ++ [c] <+: k) (hR : ∀ e ∈ R, Q ++ [c] <+: e.1)
    (hS : ∀ e, S e → ¬ Q ++ [c] <+: e.1)
    (hT : ∀ e, e ∈ T ↔ S e ∨ e ∈ R) (hT' : ∀ e, e ∈ T' ↔ S e ∨ e ∈ R') : AddRows T T' k uri := by
  rcases h with ⟨pl, u, h1, h2, h3⟩ | ⟨q, pl, u, h1, h2, h3, h4, h5⟩ | ⟨d, q, l, u, h1, h2, h3, h4, h5, h6, h7⟩
  · refine Or.inl ⟨pl, u, (hT _).mpr (Or.inr h1), ?_, ?_⟩
    · intro e he hek
      rcases (hT e).mp he with h | h
      · exact absurd (hek ▸ hk) (hS e h)
      · exact h2 e h hek
    · intro e
      rw [hT', hT, h3]
      constructor
      · rintro (h | ⟨h, h'⟩ | h)
        · exact Or.inl ⟨Or.inl h, fun hek => hS e h (hek ▸ hk)⟩
        · exact Or.inl ⟨Or.inr h, h'⟩
        · exact Or.inr h
      · rintro (⟨h | h, h'⟩ | h)
        · exact Or.inl h
        · exact Or.inr (Or.inl ⟨h, h'⟩)
        · exact Or.inr (Or.inr h)
  · refine Or.inr (Or.inl ⟨q, pl, u, (hT _).mpr (Or.inr h1), h2, h3, ?_, ?_⟩)
    · intro e he hke
      rcases (hT e).mp he with h | h
      · exact absurd (hk.trans hke) (hS e h)
      · exact h4 e h hke
    · intro e
      have hid : ∀ e, S e → squeeze k q e = e := fun e he => by
        unfold squeeze
        rw [if_neg (fun h => hS e he ((hk.trans h2).trans h))]
      rw [hT', h5]
      constructor
      · rintro (h | ⟨e0, h, h'⟩)
        · exact ⟨e, (hT e).mpr (Or.inl h), (hid e h).symm⟩
        · exact ⟨e0, (hT e0).mpr (Or.inr h), h'⟩
      · rintro ⟨e0, h, h'⟩
        rcases (hT e0).mp h with h | h
        · rw [hid e0 h] at h'
          exact Or.inl (h' ▸ h)
        · exact Or.inr ⟨e0, h, h'⟩
  · have hQd : Q ++ [c] <+: d := (le_meet hk (hR _ h3)).trans (h6 _ h3)
    refine Or.inr (Or.inr ⟨d, q, l, u, h1, h2, (hT _).mpr (Or.inr h3), h4, ?_, ?_, ?_⟩)
    · intro e he hde
      rcases (hT e).mp he with h | h
      · exact absurd (hQd.trans hde) (hS e h)
      · exact h5 e h hde
    · intro e he
      rcases (hT e).mp he with h | h
      · rcases prefix_comparable (meet_left k e.1) hk with h' | h'
        · exact h'.trans hQd
        · exact absurd (h'.trans (meet_right k e.1)) (hS e h)
      · exact h6 e h
    · intro e
      rw [hT', hT, h7]
      have : (∀ e0 ∈ T, e0.1 ≠ d) ↔ ∀ e0 ∈ R, e0.1 ≠ d := by
        constructor
        · intro h e0 he0; exact h e0 ((hT _).mpr (Or.inr he0))
        · intro h e0 he0
          rcases (hT _).mp he0 with h' | h'
          · intro hd; exact hS e0 h' (hd ▸ hQd)
          · exact h e0 h'
      rw [this, or_assoc]

theorem skew_add_cases (u : Str) (f : FilterObject) (one zero : PNode) (fs uri : Str)
    (hw : Skew (.node u f one zero)) (hfs : IsBitStr fs) :
    (fs = f.str ∧ (node u f one zero).add fs uri = .node uri f one zero) ∨
    (∃ r, fs = f.str ++ '1' :: r ∧ (node u f one zero).add fs uri =
      .node u f (addBelow one ('1' :: r) uri (f.offset + f.str.length)) zero) ∨
    (∃ r, fs = f.str ++ '0' :: r ∧ (node u f one zero).add fs uri =
      .node u f one (addBelow zero ('0' :: r) uri (f.offset + f.str.length))) ∨
    (∃ n r s, fs = n ++ '1' :: r ∧ f.str = n ++ '0' :: s ∧ (node u f one zero).add fs uri =
      .node [] (newFilter n f.offset) (.node uri (newFilter ('1' :: r) (f.offset + n.length)) .nil .nil)
        (.node u (newFilter ('0' :: s) (f.offset + n.length)) one zero)) ∨
    (∃ n r s, fs = n ++ '0' :: r ∧ f.str = n ++ '1' :: s ∧ (node u f one zero).add fs uri =
      .node [] (newFilter n f.offset) (.node u (newFilter ('1' :: s) (f.offset + n.length)) one zero)
        (.node uri (newFilter ('0' :: r) (f.offset + n.length)) .nil .nil)) ∨
    (fs <+: f.str ∧ fs ≠ f.str ∧ (node u f one zero).add fs uri =
      .node [] (newFilter fs f.offset) one zero) := by
  obtain ⟨hbit, hf, -⟩ := hw
  have hsize : f.size = f.str.length := by rw [hf]; rfl
  by_cases hpre : f.str <+: fs
  · have hhp := (hasPrefix_iff fs f.str).mpr hpre
    by_cases heq : fs = f.str
    · left
      refine ⟨heq, ?_⟩
      unfold add
      rw [if_pos hhp, if_pos heq]
      by_cases h : u = uri
      · simp [h]
      · simp [h]
    · obtain ⟨c, r, hcr⟩ := proper_prefix_cases hpre heq
      subst hcr
      have hgt : (f.str ++ c :: r).length > f.size := by rw [hsize]; simp
      have hdrop : (f.str ++ c :: r).drop f.size = c :: r := by rw [hsize]; simp
      have hlen : f.offset + f.size = f.offset + f.str.length := by rw [hsize]
      rcases hfs c (by simp) with rfl | rfl
      · right; right; left
        refine ⟨r, rfl, ?_⟩
        unfold add addBelow
        simp only [hhp, if_true, heq, if_false, hgt, hdrop, hlen]
        cases zero <;> rfl
      · right; left
        refine ⟨r, rfl, ?_⟩
        unfold add addBelow
        simp only [hhp, if_true, heq, if_false, hgt, hdrop, hlen]
        cases one <;> rfl
  · have hhp : ¬ hasPrefix fs f.str = true := fun h => hpre ((hasPrefix_iff fs f.str).mp h)
    obtain ⟨l1, l2, l3⟩ := lcp2_spec fs f.str
    generalize hncp : lcp [fs, f.str] = ncp at *
    have hnf : f.str ≠ ncp := by rintro h; rw [← h] at l1; exact hpre l1
    by_cases hnfs : fs = ncp
    · right; right; right; right; right
      refine ⟨hnfs ▸ l2, fun h => hnf (h ▸ hnfs), ?_⟩
      have hge : ncp.length ≥ fs.length := by rw [hnfs]; exact Nat.le_refl _
      unfold add
      rw [if_neg hhp]
      dsimp only
      rw [hncp, if_pos hge, ← hnfs]
    · obtain ⟨c, r, hcr⟩ := proper_prefix_cases l1 hnfs
      obtain ⟨d, s, hds⟩ := proper_prefix_cases l2 hnf
      have hcd : c ≠ d := by
        rintro rfl
        have : ncp ++ [c] <+: ncp := by
          apply l3
          · rw [hcr]; exact ⟨r, by simp⟩
          · rw [hds]; exact ⟨s, by simp⟩
        have := this.length_le
        simp at this
        omega
      have hcb : c = '0' ∨ c = '1' := hfs c (by rw [hcr]; simp)
      have hdb : d = '0' ∨ d = '1' := hbit d (by rw [hds]; simp)
      have hge : ¬ ncp.length ≥ fs.length := by rw [hcr]; simp
      have hdropf : fs.drop ncp.length = c :: r := by rw [hcr]; simp
      have hdrops : f.str.drop ncp.length = d :: s := by rw [hds]; simp
      rcases hcb with rfl | rfl
      · have hd1 : d = '1' := by rcases hdb with h | h; exact absurd h.symm hcd; exact h
        subst hd1
        right; right; right; right; left
        refine ⟨ncp, r, s, hcr, hds, ?_⟩
        unfold add
        rw [if_neg hhp]
        dsimp only
        rw [hncp, if_neg hge, hdropf, hdrops]
        rfl
      · have hd0 : d = '0' := by rcases hdb with h | h; exact h; exact absurd h.symm hcd
        subst hd0
        right; right; right; left
        refine ⟨ncp, r, s, hcr, hds, ?_⟩
        unfold add
        rw [if_neg hhp]
        dsimp only
        rw [hncp, if_neg hge, hdropf, hdrops]
        rfl

/-- where a call may enter: the root, or a node that the string starts to go to -/
def Entered (pl : List Nat) (t : PNode) (fs : Str) : Prop :=
  offs t = placeAfter pl ∨ ∃ c, t.str.head? = some c ∧ fs.head? = some c

theorem not_prefix_other {Q a : Str} {c d : Char} (hcd : c ≠ d) (ha : Q ++ [c] <+: a) (hb : Q ++ [d] <+: a) :
    False := by
  obtain ⟨r, rfl⟩ := ha
  obtain ⟨s, hs⟩ := hb
  simp at hs
  exact hcd hs.1.symm

theorem own_not_prefix (Q : Str) (c : Char) : ¬ Q ++ [c] <+: Q := by
  intro h
  have := h.length_le
  simp at this
  omega

theorem add_rows : ∀ (t : PNode) (P : Str) (pl : List Nat) (fs uri : Str), t ≠ .nil → Skew t → IsBitStr fs →
    pl.length = P.length → Entered pl t fs →
    AddRows (rowsOf P pl t) (rowsOf P pl (t.add fs uri)) (P ++ fs) uri ∧ Skew (t.add fs uri) ∧
      offs (t.add fs uri) = offs t ∧
      (∀ c, t.str.head? = some c → fs.head? = some c → (t.add fs uri).str.head? = some c)
  | .nil, _, _, _, _, h, _, _, _, _ => absurd rfl h
  | .node u f one zero, P, pl, fs, uri, _, hw, hfs, hl, hent => by
    obtain ⟨hbit, hf, hw1, hw0, hh1, hh0⟩ := id hw
    have hlen : (pl ++ List.range' f.offset f.str.length).length = (P ++ f.str).length := by simp [hl]
    have below : ∀ (t : PNode) (c : Char) (r : Str), fs = f.str ++ c :: r →
        (t = one ∨ t = zero) → Skew t → (t ≠ .nil → t.str.head? = some c) →
        (t ≠ .nil → AddRows (rowsOf (P ++ f.str) (pl ++ List.range' f.offset f.str.length) t)
          (rowsOf (P ++ f.str) (pl ++ List.range' f.offset f.str.length)
            (addBelow t (c :: r) uri (f.offset + f.str.length))) (P ++ fs) uri) ∧
        (t = .nil → rowsOf (P ++ f.str) (pl ++ List.range' f.offset f.str.length)
            (addBelow t (c :: r) uri (f.offset + f.str.length)) =
          [(P ++ fs, pl ++ List.range' f.offset f.str.length ++
            List.range' (placeAfter (pl ++ List.range' f.offset f.str.length)) ((P ++ fs).length - (P ++ f.str).length), uri)]) ∧
        Skew (addBelow t (c :: r) uri (f.offset + f.str.length)) ∧
        (addBelow t (c :: r) uri (f.offset + f.str.length)).str.head? = some c := by
      rintro t c r rfl htd hwt hh
      cases t with
      | nil =>
        refine ⟨fun h => absurd rfl h, ?_, ?_, ?_⟩
        · intro _
          have hpa : placeAfter (pl ++ List.range' f.offset f.str.length) = f.offset + f.str.length := by
            apply placeAfter_range
            rcases hent with h | ⟨d, h, -⟩
            · exact Or.inr h
            · left
              simp only [str] at h
              intro h0
              rw [List.length_eq_zero_iff.mp h0] at h
              simp at h
          rw [hpa]
          simp only [addBelow, rowsOf, newFilter_str, newFilter_offset, List.append_nil]
          congr 2
          · simp
          · congr 2
            simp
            omega
        · refine ⟨hfs.of_append_right, rfl, trivial, trivial, fun h => absurd rfl h, fun h => absurd rfl h⟩
        · simp [addBelow, str, newFilter_str]
      | node u' f' o' z' =>
        have hent' : Entered (pl ++ List.range' f.offset f.str.length) (node u' f' o' z') (c :: r) :=
          Or.inr ⟨c, hh (by simp), by simp⟩
        obtain ⟨i1, i2, i3, i4⟩ : AddRows (rowsOf (P ++ f.str) (pl ++ List.range' f.offset f.str.length) (node u' f' o' z'))
              (rowsOf (P ++ f.str) (pl ++ List.range' f.offset f.str.length) ((node u' f' o' z').add (c :: r) uri))
              ((P ++ f.str) ++ c :: r) uri ∧ Skew ((node u' f' o' z').add (c :: r) uri) ∧
            offs ((node u' f' o' z').add (c :: r) uri) = offs (node u' f' o' z') ∧
            (∀ d, (node u' f' o' z').str.head? = some d → (c :: r).head? = some d →
              ((node u' f' o' z').add (c :: r) uri).str.head? = some d) := by
          rcases htd with h | h
          · subst h
            exact add_rows (node u' f' o' z') (P ++ f.str) (pl ++ List.range' f.offset f.str.length)
              (c :: r) uri (by simp) hwt hfs.of_append_right hlen hent'
          · subst h
            exact add_rows (node u' f' o' z') (P ++ f.str) (pl ++ List.range' f.offset f.str.length)
              (c :: r) uri (by simp) hwt hfs.of_append_right hlen hent'
        have i5 := i4 c (hh (by simp)) (by simp)
        refine ⟨fun _ => ?_, fun h => (by cases h), i2, i5⟩
        rw [show P ++ (f.str ++ c :: r) = (P ++ f.str) ++ c :: r by simp]
        exact i1
    -- a child taken by the call
    have side : ∀ (t t' tn : PNode) (c c' : Char) (r : Str), fs = f.str ++ c :: r → c ≠ c' →
        (t ≠ .nil → t.str.head? = some c) → (t' ≠ .nil → t'.str.head? = some c') →
        (∀ e, e ∈ rowsOf P pl (.node u f one zero) ↔
          (e = (P ++ f.str, pl ++ List.range' f.offset f.str.length, u) ∨
            e ∈ rowsOf (P ++ f.str) (pl ++ List.range' f.offset f.str.length) t') ∨
          e ∈ rowsOf (P ++ f.str) (pl ++ List.range' f.offset f.str.length) t) →
        (∀ e, e ∈ rowsOf P pl tn ↔
          (e = (P ++ f.str, pl ++ List.range' f.offset f.str.length, u) ∨
            e ∈ rowsOf (P ++ f.str) (pl ++ List.range' f.offset f.str.length) t') ∨
          e ∈ rowsOf (P ++ f.str) (pl ++ List.range' f.offset f.str.length)
            (addBelow t (c :: r) uri (f.offset + f.str.length))) →
        (t ≠ .nil → AddRows (rowsOf (P ++ f.str) (pl ++ List.range' f.offset f.str.length) t)
          (rowsOf (P ++ f.str) (pl ++ List.range' f.offset f.str.length)
            (addBelow t (c :: r) uri (f.offset + f.str.length))) (P ++ fs) uri) →
        (t = .nil → rowsOf (P ++ f.str) (pl ++ List.range' f.offset f.str.length)
            (addBelow t (c :: r) uri (f.offset + f.str.length)) =
          [(P ++ fs, pl ++ List.range' f.offset f.str.length ++
            List.range' (placeAfter (pl ++ List.range' f.offset f.str.length)) ((P ++ fs).length - (P ++ f.str).length), uri)]) →
        AddRows (rowsOf P pl (.node u f one zero)) (rowsOf P pl tn) (P ++ fs) uri := by
      intro t t' tn c c' r hr hcc ht ht' hT hT' hb1 hb2
      have hkc : P ++ f.str ++ [c] <+: P ++ fs := by rw [hr]; exact ⟨r, by simp⟩
      have hS : ∀ e : PRow, (e = (P ++ f.str, pl ++ List.range' f.offset f.str.length, u) ∨
            e ∈ rowsOf (P ++ f.str) (pl ++ List.range' f.offset f.str.length) t') → ¬ P ++ f.str ++ [c] <+: e.1 := by
        rintro e (rfl | he) hp
        · exact own_not_prefix _ _ hp
        · exact not_prefix_other hcc hp (rows_child ht' he)
      by_cases htn : t = .nil
      · have hrow := hb2 htn
        subst htn
        simp only [rowsOf, List.not_mem_nil, or_false] at hT
        rw [hrow] at hT'
        refine Or.inr (Or.inr ⟨P ++ f.str, P ++ f.str, pl ++ List.range' f.offset f.str.length, u, ?_, ?_, ?_,
          List.prefix_rfl, fun e _ h => h, ?_, ?_⟩)
        · rw [hr]; exact ⟨c :: r, by simp⟩
        · rw [hr]; intro h; have := congrArg List.length h; simp at this
        · rw [rowsOf]; simp
        · intro e he
          rcases prefix_comparable (meet_left (P ++ fs) e.1) hkc with h | h
          · have hle := h.length_le
            rcases prefix_comparable h (List.prefix_append (P ++ f.str) [c]) with h' | h'
            · exact h'
            · by_cases heq : (meet (P ++ fs) e.1).length ≤ (P ++ f.str).length
              · exact List.prefix_of_prefix_length_le h (List.prefix_append _ _) heq
              · exfalso
                have hfull : meet (P ++ fs) e.1 = P ++ f.str ++ [c] := h.eq_of_length (by
                  simp only [List.length_append, List.length_cons, List.length_nil] at hle heq ⊢
                  omega)
                have := meet_right (P ++ fs) e.1
                rw [hfull] at this
                exact hS e ((hT e).mp (by simpa [rowsOf] using he)) this
          · exact absurd (h.trans (meet_right _ _)) (hS e ((hT e).mp (by simpa [rowsOf] using he)))
        · intro e
          have htake : (pl ++ List.range' f.offset f.str.length).take (P ++ f.str).length =
              pl ++ List.range' f.offset f.str.length := by rw [← hlen, List.take_length]
          rw [hT', htake, List.mem_singleton]
          have hno : ¬ ∀ e0 ∈ rowsOf P pl (.node u f one zero), e0.1 ≠ P ++ f.str := fun h =>
            h _ (by rw [rowsOf]; exact List.mem_cons_self) rfl
          constructor
          · rintro (h | h)
            · left
              have := (hT e).mpr h
              simpa [rowsOf] using this
            · exact Or.inr (Or.inl h)
          · rintro (h | h | ⟨-, h⟩)
            · exact Or.inl ((hT e).mp (by simpa [rowsOf] using h))
            · exact Or.inr h
            · exact absurd h hno
      · exact (hb1 htn).lift _ hkc (fun e he => rows_child ht he) hS hT hT'
    -- the edge cut in two
    have cut : ∀ (n r s : Str) (c d : Char) (tn : PNode), c ≠ d → fs = n ++ c :: r → f.str = n ++ d :: s →
        (∀ e, e ∈ rowsOf P pl tn ↔ e ∈ rowsOf P pl (.node u f one zero) ∨
          e = (P ++ n ++ c :: r, pl ++ List.range' f.offset n.length ++
            List.range' (f.offset + n.length) (c :: r).length, uri) ∨
          e = (P ++ n, pl ++ List.range' f.offset n.length, [])) →
        AddRows (rowsOf P pl (.node u f one zero)) (rowsOf P pl tn) (P ++ fs) uri := by
      intro n r s c d tn hcd hr hs hT'
      have hn : n.length ≠ 0 ∨ f.offset = placeAfter pl := by
        rcases hent with h | ⟨x, h1, h2⟩
        · exact Or.inr h
        · left
          intro h0
          rw [List.length_eq_zero_iff.mp h0, List.nil_append] at hr hs
          simp only [str] at h1
          rw [hs] at h1; rw [hr] at h2
          simp at h1 h2
          exact hcd (h2.trans h1.symm)
      have htake : (pl ++ List.range' f.offset f.str.length).take (P ++ n).length =
          pl ++ List.range' f.offset n.length := by
        rw [List.length_append, ← hl, List.take_length_add_append, hs, List.length_append (as := n),
          ← List.range'_append_1, List.take_left' (by simp)]
      have hall : ∀ e ∈ rowsOf P pl (.node u f one zero), P ++ f.str <+: e.1 := fun e he => rows_prefix _ P pl e he
      have hmf : meet (P ++ fs) (P ++ f.str) = P ++ n := by
        rw [hr, hs]
        exact meet_split hcd ⟨r, by simp⟩ ⟨s, by simp⟩
      refine Or.inr (Or.inr ⟨P ++ n, P ++ f.str, pl ++ List.range' f.offset f.str.length, u, ?_, ?_, ?_, ?_, ?_, ?_, ?_⟩)
      · rw [hr]; exact ⟨c :: r, by simp⟩
      · rw [hr]; intro h; have := congrArg List.length h; simp at this
      · rw [rowsOf]; exact List.mem_cons_self
      · rw [hs]; exact ⟨d :: s, by simp⟩
      · intro e he _; exact hall e he
      · intro e he
        have h1 := hall e he
        have : meet (P ++ fs) e.1 = P ++ n := by
          rw [hr]
          refine meet_split hcd ⟨r, by simp⟩ ((?_ : P ++ n ++ [d] <+: P ++ f.str).trans h1)
          rw [hs]; exact ⟨s, by simp⟩
        rw [this]
        exact List.prefix_rfl
      · intro e
        rw [hT', htake, placeAfter_range hn]
        have hno : ∀ e0 ∈ rowsOf P pl (.node u f one zero), e0.1 ≠ P ++ n := by
          intro e0 he0 h
          have := (hall e0 he0).length_le
          rw [h, hs] at this
          simp at this
          omega
        have hk : P ++ n ++ c :: r = P ++ fs := by rw [hr]; simp
        have hkl : (P ++ fs).length - (P ++ n).length = (c :: r).length := by
          rw [hr]; simp; omega
        rw [hk, hkl]
        constructor
        · rintro (h | h | h)
          · exact Or.inl h
          · exact Or.inr (Or.inl h)
          · exact Or.inr (Or.inr ⟨h, hno⟩)
        · rintro (h | h | ⟨h, -⟩)
          · exact Or.inl h
          · exact Or.inr (Or.inl h)
          · exact Or.inr (Or.inr h)
    -- the upper node after the cut has the rows of the old one
    have upper : ∀ (n s : Str) (d : Char), f.str = n ++ d :: s →
        rowsOf (P ++ n) (pl ++ List.range' f.offset n.length)
          (.node u (newFilter (d :: s) (f.offset + n.length)) one zero) =
          rowsOf P pl (.node u f one zero) := by
      intro n s d hs
      simp only [rowsOf, newFilter_str, newFilter_offset]
      rw [rows_append, rows_append, ← hs]
      congr 2
      · rw [hs]; simp
      · rw [hs, List.append_assoc, List.length_append]
        congr 2
        rw [List.range'_append_1]
    rcases skew_add_cases u f one zero fs uri hw hfs with ⟨hr, h⟩ | ⟨r, hr, h⟩ | ⟨r, hr, h⟩ |
      ⟨n, r, s, hr, hs, h⟩ | ⟨n, r, s, hr, hs, h⟩ | ⟨h1, h2, h⟩
    · rw [h]
      refine ⟨Or.inl ⟨pl ++ List.range' f.offset f.str.length, u, ?_, ?_, ?_⟩, ⟨hbit, hf, hw1, hw0, hh1, hh0⟩, rfl, ?_⟩
      · rw [hr, rowsOf]; exact List.mem_cons_self
      · intro e he hk
        rw [rowsOf, List.mem_cons, List.mem_append] at he
        rcases he with he | he | he
        · rw [he, hr]
        · exact absurd (hk ▸ rows_child hh1 he) (by rw [hr]; exact own_not_prefix _ _)
        · exact absurd (hk ▸ rows_child hh0 he) (by rw [hr]; exact own_not_prefix _ _)
      · intro e
        rw [rowsOf, rowsOf, List.mem_cons, List.mem_cons, hr]
        constructor
        · rintro (he | he)
          · exact Or.inr he
          · left
            refine ⟨Or.inr he, fun hk => ?_⟩
            rw [List.mem_append] at he
            rcases he with he | he
            · exact absurd (hk ▸ rows_child hh1 he) (own_not_prefix _ _)
            · exact absurd (hk ▸ rows_child hh0 he) (own_not_prefix _ _)
        · rintro (⟨he | he, hk⟩ | he)
          · exact absurd (by rw [he]) hk
          · exact Or.inr he
          · exact Or.inl he
      · intro c hc _; exact hc
    · obtain ⟨b1, b2, b3, b4⟩ := below one '1' r hr (Or.inl rfl) hw1 hh1
      rw [h]
      refine ⟨side one zero _ '1' '0' r hr (by decide) hh1 hh0 ?_ ?_ b1 b2,
        ⟨hbit, hf, b3, hw0, fun _ => b4, hh0⟩, rfl, fun c hc _ => hc⟩
      · intro e
        rw [rowsOf, List.mem_cons, List.mem_append]
        constructor
        · rintro (h | h | h)
          · exact Or.inl (Or.inl h)
          · exact Or.inr h
          · exact Or.inl (Or.inr h)
        · rintro ((h | h) | h)
          · exact Or.inl h
          · exact Or.inr (Or.inr h)
          · exact Or.inr (Or.inl h)
      · intro e
        rw [rowsOf, List.mem_cons, List.mem_append]
        constructor
        · rintro (h | h | h)
          · exact Or.inl (Or.inl h)
          · exact Or.inr h
          · exact Or.inl (Or.inr h)
        · rintro ((h | h) | h)
          · exact Or.inl h
          · exact Or.inr (Or.inr h)
          · exact Or.inr (Or.inl h)
    · obtain ⟨b1, b2, b3, b4⟩ := below zero '0' r hr (Or.inr rfl) hw0 hh0
      rw [h]
      refine ⟨side zero one _ '0' '1' r hr (by decide) hh0 hh1 ?_ ?_ b1 b2,
        ⟨hbit, hf, hw1, b3, hh1, fun _ => b4⟩, rfl, fun c hc _ => hc⟩
      · intro e
        rw [rowsOf, List.mem_cons, List.mem_append, or_assoc]
      · intro e
        rw [rowsOf, List.mem_cons, List.mem_append, or_assoc]
    · rw [h]
      have hb : IsBitStr n := fun x hx => hfs x (by rw [hr]; simp [hx])
      have hb' : IsBitStr ('1' :: r) := fun x hx => hfs x (by rw [hr]; exact List.mem_append_right _ hx)
      have hb'' : IsBitStr ('0' :: s) := fun x hx => hbit x (by rw [hs]; exact List.mem_append_right _ hx)
      refine ⟨cut n r s '1' '0' _ (by decide) hr hs ?_, ?_, rfl, ?_⟩
      · intro e
        rw [rowsOf, List.mem_cons, List.mem_append]
        simp only [newFilter_str, newFilter_offset]
        rw [upper n s '0' hs]
        simp only [rowsOf, newFilter_str, newFilter_offset, List.append_nil, List.mem_singleton]
        constructor
        · rintro (h | h | h)
          · exact Or.inr (Or.inr h)
          · exact Or.inr (Or.inl h)
          · exact Or.inl h
        · rintro (h | h | h)
          · exact Or.inr (Or.inr h)
          · exact Or.inr (Or.inl h)
          · exact Or.inl h
      · exact ⟨hb, rfl, ⟨hb', rfl, trivial, trivial, fun h => absurd rfl h, fun h => absurd rfl h⟩,
          ⟨hb'', rfl, hw1, hw0, hh1, hh0⟩, fun _ => rfl, fun _ => rfl⟩
      · intro c h1 h2
        simp only [str, newFilter_str] at h1 ⊢
        rw [hs] at h1; rw [hr] at h2
        cases n with
        | nil => simp at h1 h2; exact absurd (h1.trans h2.symm) (by decide)
        | cons x n => simpa using h1
    · rw [h]
      have hb : IsBitStr n := fun x hx => hfs x (by rw [hr]; simp [hx])
      have hb' : IsBitStr ('0' :: r) := fun x hx => hfs x (by rw [hr]; exact List.mem_append_right _ hx)
      have hb'' : IsBitStr ('1' :: s) := fun x hx => hbit x (by rw [hs]; exact List.mem_append_right _ hx)
      refine ⟨cut n r s '0' '1' _ (by decide) hr hs ?_, ?_, rfl, ?_⟩
      · intro e
        rw [rowsOf, List.mem_cons, List.mem_append]
        simp only [newFilter_str, newFilter_offset]
        rw [upper n s '1' hs]
        simp only [rowsOf, newFilter_str, newFilter_offset, List.append_nil, List.mem_singleton]
        constructor
        · rintro (h | h | h)
          · exact Or.inr (Or.inr h)
          · exact Or.inl h
          · exact Or.inr (Or.inl h)
        · rintro (h | h | h)
          · exact Or.inr (Or.inl h)
          · exact Or.inr (Or.inr h)
          · exact Or.inl h
      · exact ⟨hb, rfl, ⟨hb'', rfl, hw1, hw0, hh1, hh0⟩,
          ⟨hb', rfl, trivial, trivial, fun h => absurd rfl h, fun h => absurd rfl h⟩, fun _ => rfl, fun _ => rfl⟩
      · intro c h1 h2
        simp only [str, newFilter_str] at h1 ⊢
        rw [hs] at h1; rw [hr] at h2
        cases n with
        | nil => simp at h1 h2; exact absurd (h1.trans h2.symm) (by decide)
        | cons x n => simpa using h1
    · rw [h]
      refine ⟨Or.inr (Or.inl ⟨P ++ f.str, pl ++ List.range' f.offset f.str.length, u, ?_, ?_, ?_, ?_, ?_⟩), ?_, rfl, ?_⟩
      · rw [rowsOf]; exact List.mem_cons_self
      · exact (List.prefix_append_right_inj P).mpr h1
      · intro h; exact h2 (List.append_cancel_left h)
      · intro e he _; exact rows_prefix _ P pl e he
      · obtain ⟨g, hg⟩ := h1
        have htake : ∀ x : List Nat, (pl ++ List.range' f.offset f.str.length ++ x).take (P ++ fs).length =
            pl ++ List.range' f.offset fs.length := by
          intro x
          rw [List.append_assoc, List.length_append, ← hl, List.take_length_add_append, ← hg, List.length_append,
            ← List.range'_append_1, List.append_assoc, List.take_left' (by simp)]
        have hmap : rowsOf P pl (.node [] (newFilter fs f.offset) one zero) =
            (rowsOf P pl (.node u f one zero)).map (squeeze (P ++ fs) (P ++ f.str)) := by
          simp only [rowsOf, newFilter_str, newFilter_offset, List.map_cons, List.map_append]
          have hch : ∀ (t : PNode) (c : Char), (t ≠ .nil → t.str.head? = some c) →
              rowsOf (P ++ fs) (pl ++ List.range' f.offset fs.length) t =
              (rowsOf (P ++ f.str) (pl ++ List.range' f.offset f.str.length) t).map
                (squeeze (P ++ fs) (P ++ f.str)) := by
            intro t c ht
            have hsh := rows_shift (P ++ fs) (pl ++ List.range' f.offset fs.length) t (P ++ f.str)
              (pl ++ List.range' f.offset f.str.length) [] []
            simp only [List.append_nil] at hsh
            rw [hsh]
            apply List.map_congr_left
            intro e he
            obtain ⟨-, y, hy⟩ := rows_length t _ _ hlen e he
            have hp := (List.prefix_append _ _).trans (rows_prefix t _ _ e he)
            have hne : e.1 ≠ P ++ f.str := fun h => own_not_prefix _ _ (h ▸ rows_child ht he)
            unfold squeeze
            rw [if_pos hp, if_neg hne, ← hy, htake, hlen]
          rw [hch one '1' hh1, hch zero '0' hh0]
          congr 1
          unfold squeeze
          dsimp only
          rw [if_pos List.prefix_rfl, if_pos rfl]
          have := htake []
          rw [List.append_nil] at this
          rw [this, List.drop_length, List.append_nil, ← hlen, List.drop_length, List.append_nil]
        intro e
        rw [hmap, List.mem_map]
        constructor
        · rintro ⟨a, ha, rfl⟩; exact ⟨a, ha, rfl⟩
        · rintro ⟨a, ha, rfl⟩; exact ⟨a, ha, rfl⟩
      · exact ⟨hfs, rfl, hw1, hw0, hh1, hh0⟩
      · intro c _ hc; exact hc
termination_by t => t

/-! ### deletions -/

/-- the string up to `q` looked for right behind `k` -/
def rebase (k : Str) (pl : List Nat) (q : Str) (e : PRow) : PRow :=
  if q <+: e.1 then (e.1, pl ++ List.range' (placeAfter pl) (q.length - k.length) ++ e.2.1.drop q.length, e.2.2)
  else e

/-- rows before and after the deletion of `k` -/
def DelRows (R R' : List PRow) (k : Str) : Prop :=
  ((∀ e ∈ R, e.1 ≠ k) ∧ ∀ e, e ∈ R' ↔ e ∈ R) ∨
  (∃ pl u, (k, pl, u) ∈ R ∧ (∃ e ∈ R, k ++ ['1'] <+: e.1) ∧ (∃ e ∈ R, k ++ ['0'] <+: e.1) ∧
    (∀ e ∈ R, e.1 = k → e = (k, pl, u)) ∧ ∀ e, e ∈ R' ↔ (e ∈ R ∧ e.1 ≠ k) ∨ e = (k, pl, [])) ∨
  (∃ pl u, (k, pl, u) ∈ R ∧ (∀ e ∈ R, k <+: e.1 → e.1 = k) ∧ ∀ e, e ∈ R' ↔ e ∈ R ∧ e.1 ≠ k) ∨
  (∃ pl u q l u', (k, pl, u) ∈ R ∧ (q, l, u') ∈ R ∧ k <+: q ∧ k ≠ q ∧ (∀ e ∈ R, e.1 = k → e = (k, pl, u)) ∧
    (∀ e ∈ R, k <+: e.1 → e.1 ≠ k → q <+: e.1) ∧
    ∀ e, e ∈ R' ↔ ∃ e0 ∈ R, e0.1 ≠ k ∧ e = rebase k pl q e0)

theorem DelRows.lift {R R' T T' : List PRow} {k Q : Str} {c : Char} (S : PRow → Prop)
    (h : DelRows R R' k) (hk : Q ++ [c] <+: k) (hS : ∀ e, S e → ¬ Q ++ [c] <+: e.1)
    (hT : ∀ e, e ∈ T ↔ S e ∨ e ∈ R) (hT' : ∀ e, e ∈ T' ↔ S e ∨ e ∈ R') : DelRows T T' k := by
  have hSk : ∀ e, S e → e.1 ≠ k := fun e he h => hS e he (h ▸ hk)
  have uniq : ∀ x, (∀ e ∈ R, e.1 = k → e = x) → ∀ e ∈ T, e.1 = k → e = x := by
    intro x h e he hek
    rcases (hT e).mp he with h' | h'
    · exact absurd hek (hSk e h')
    · exact h e h' hek
  rcases h with ⟨h1, h2⟩ | ⟨pl, u, h1, ⟨a, ha, ha'⟩, ⟨b, hb, hb'⟩, h2, h3⟩ | ⟨pl, u, h1, h2, h3⟩ |
    ⟨pl, u, q, l, u', h1, h2, h3, h4, h5, h6, h7⟩
  · refine Or.inl ⟨?_, ?_⟩
    · intro e he
      rcases (hT e).mp he with h | h
      · exact hSk e h
      · exact h1 e h
    · intro e; rw [hT', hT, h2]
  · refine Or.inr (Or.inl ⟨pl, u, (hT _).mpr (Or.inr h1), ⟨a, (hT _).mpr (Or.inr ha), ha'⟩,
      ⟨b, (hT _).mpr (Or.inr hb), hb'⟩, uniq _ h2, ?_⟩)
    intro e
    rw [hT', hT, h3]
    constructor
    · rintro (h | ⟨h, h'⟩ | h)
      · exact Or.inl ⟨Or.inl h, hSk e h⟩
      · exact Or.inl ⟨Or.inr h, h'⟩
      · exact Or.inr h
    · rintro (⟨h | h, h'⟩ | h)
      · exact Or.inl h
      · exact Or.inr (Or.inl ⟨h, h'⟩)
      · exact Or.inr (Or.inr h)
  · refine Or.inr (Or.inr (Or.inl ⟨pl, u, (hT _).mpr (Or.inr h1), ?_, ?_⟩))
    · intro e he hke
      rcases (hT e).mp he with h | h
      · exact absurd (hk.trans hke) (hS e h)
      · exact h2 e h hke
    · intro e
      rw [hT', hT, h3]
      constructor
      · rintro (h | ⟨h, h'⟩)
        · exact ⟨Or.inl h, hSk e h⟩
        · exact ⟨Or.inr h, h'⟩
      · rintro ⟨h | h, h'⟩
        · exact Or.inl h
        · exact Or.inr ⟨h, h'⟩
  · refine Or.inr (Or.inr (Or.inr ⟨pl, u, q, l, u', (hT _).mpr (Or.inr h1), (hT _).mpr (Or.inr h2), h3, h4,
      uniq _ h5, ?_, ?_⟩))
    · intro e he hke hne
      rcases (hT e).mp he with h | h
      · exact absurd (hk.trans hke) (hS e h)
      · exact h6 e h hke hne
    · have hid : ∀ e, S e → rebase k pl q e = e := fun e he => by
        unfold rebase
        rw [if_neg (fun h => hS e he ((hk.trans h3).trans h))]
      intro e
      rw [hT', h7]
      constructor
      · rintro (h | ⟨e0, h, h', h''⟩)
        · exact ⟨e, (hT e).mpr (Or.inl h), hSk e h, (hid e h).symm⟩
        · exact ⟨e0, (hT e0).mpr (Or.inr h), h', h''⟩
      · rintro ⟨e0, h, h', h''⟩
        rcases (hT e0).mp h with h | h
        · rw [hid e0 h] at h''
          exact Or.inl (h'' ▸ h)
        · exact Or.inr ⟨e0, h, h', h''⟩

/-- a leaf taken away, or a deletion below -/
def delBelow (t : PNode) (s : Str) : PNode :=
  match t with
  | .nil => .nil
  | t => if t.isLeafWith s then .nil else t.delete s

theorem skew_delete_cases (u : Str) (f : FilterObject) (one zero : PNode) (fs : Str)
    (hw : Skew (.node u f one zero)) (hfs : IsBitStr fs) :
    (¬ f.str <+: fs ∧ (node u f one zero).delete fs = .node u f one zero) ∨
    (fs = f.str ∧ one = .nil ∧ zero = .nil) ∨
    (fs = f.str ∧ one ≠ .nil ∧ zero ≠ .nil ∧ (node u f one zero).delete fs = .node [] f one zero) ∨
    (fs = f.str ∧ ∃ u1 f1 o1 z1, (one = .node u1 f1 o1 z1 ∧ zero = .nil ∨ one = .nil ∧ zero = .node u1 f1 o1 z1) ∧
      (node u f one zero).delete fs = .node u1 (newFilter (f.str ++ f1.str) f.offset) o1 z1) ∨
    (∃ r, fs = f.str ++ '1' :: r ∧ (node u f one zero).delete fs = .node u f (delBelow one ('1' :: r)) zero) ∨
    (∃ r, fs = f.str ++ '0' :: r ∧ (node u f one zero).delete fs = .node u f one (delBelow zero ('0' :: r))) := by
  obtain ⟨hbit, hf, -⟩ := hw
  have hsize : f.size = f.str.length := by rw [hf]; rfl
  by_cases hpre : f.str <+: fs
  · have hhp : ¬ ¬ hasPrefix fs f.str = true := fun h => h ((hasPrefix_iff fs f.str).mpr hpre)
    by_cases heq : fs = f.str
    · subst heq
      cases ho : one with
      | nil =>
        cases hz : zero with
        | nil => exact Or.inr (Or.inl ⟨rfl, rfl, rfl⟩)
        | node u0 f0 o0 z0 =>
          refine Or.inr (Or.inr (Or.inr (Or.inl ⟨rfl, u0, f0, o0, z0, Or.inr ⟨rfl, rfl⟩, ?_⟩)))
          unfold delete; simp only [hhp, if_false, if_true]
      | node u1 f1 o1 z1 =>
        cases hz : zero with
        | nil =>
          refine Or.inr (Or.inr (Or.inr (Or.inl ⟨rfl, u1, f1, o1, z1, Or.inl ⟨rfl, rfl⟩, ?_⟩)))
          unfold delete; simp only [hhp, if_false, if_true]
        | node u0 f0 o0 z0 =>
          refine Or.inr (Or.inr (Or.inl ⟨rfl, by simp, by simp, ?_⟩))
          unfold delete; simp only [hhp, if_false, if_true]
    · obtain ⟨c, r, hcr⟩ := proper_prefix_cases hpre heq
      subst hcr
      have hgt : (f.str ++ c :: r).length > f.size := by rw [hsize]; simp
      have hdrop : (f.str ++ c :: r).drop f.size = c :: r := by rw [hsize]; simp
      rcases hfs c (by simp) with rfl | rfl
      · refine Or.inr (Or.inr (Or.inr (Or.inr (Or.inr ⟨r, rfl, ?_⟩))))
        conv => lhs; unfold delete
        simp only [hhp, if_false, heq, hgt, if_true, hdrop]
        cases zero with
        | nil => rfl
        | node => unfold delBelow; dsimp only; split <;> rfl
      · refine Or.inr (Or.inr (Or.inr (Or.inr (Or.inl ⟨r, rfl, ?_⟩))))
        conv => lhs; unfold delete
        simp only [hhp, if_false, heq, hgt, if_true, hdrop]
        cases one with
        | nil => rfl
        | node => unfold delBelow; dsimp only; split <;> rfl
  · have hhp : ¬ hasPrefix fs f.str = true := fun h => hpre ((hasPrefix_iff fs f.str).mp h)
    left
    refine ⟨hpre, ?_⟩
    unfold delete; simp only [hhp, not_false_eq_true, if_true, Bool.false_eq_true]

theorem delete_rows : ∀ (t : PNode) (P : Str) (pl : List Nat) (fs : Str), t ≠ .nil → Skew t → IsBitStr fs →
    pl.length = P.length → (t.str ≠ [] ∨ offs t = placeAfter pl) → t.isLeafWith fs = false →
    DelRows (rowsOf P pl t) (rowsOf P pl (t.delete fs)) (P ++ fs) ∧ Skew (t.delete fs) ∧
      offs (t.delete fs) = offs t ∧ t.delete fs ≠ .nil ∧
      (∀ c, t.str.head? = some c → (t.delete fs).str.head? = some c)
  | .nil, _, _, _, h, _, _, _, _, _ => absurd rfl h
  | .node u f one zero, P, pl, fs, _, hw, hfs, hl, hent, hleaf => by
    obtain ⟨hbit, hf, hw1, hw0, hh1, hh0⟩ := id hw
    have hlen : (pl ++ List.range' f.offset f.str.length).length = (P ++ f.str).length := by simp [hl]
    have hpa : placeAfter (pl ++ List.range' f.offset f.str.length) = f.offset + f.str.length := by
      apply placeAfter_range
      rcases hent with h | h
      · exact Or.inl (fun h0 => h (List.length_eq_zero_iff.mp h0))
      · exact Or.inr h
    have own : (P ++ f.str, pl ++ List.range' f.offset f.str.length, u) ∈ rowsOf P pl (.node u f one zero) := by
      rw [rowsOf]; exact List.mem_cons_self
    have uniq : ∀ e ∈ rowsOf P pl (.node u f one zero), e.1 = P ++ f.str →
        e = (P ++ f.str, pl ++ List.range' f.offset f.str.length, u) := by
      intro e he hk
      rw [rowsOf, List.mem_cons, List.mem_append] at he
      rcases he with he | he | he
      · exact he
      · exact absurd (hk ▸ rows_child hh1 he) (own_not_prefix _ _)
      · exact absurd (hk ▸ rows_child hh0 he) (own_not_prefix _ _)
    -- a child taken by the call
    have below : ∀ (t : PNode) (c : Char) (r : Str), fs = f.str ++ c :: r →
        (t = one ∨ t = zero) → Skew t → (t ≠ .nil → t.str.head? = some c) →
        DelRows (rowsOf (P ++ f.str) (pl ++ List.range' f.offset f.str.length) t)
          (rowsOf (P ++ f.str) (pl ++ List.range' f.offset f.str.length) (delBelow t (c :: r))) (P ++ fs) ∧
        Skew (delBelow t (c :: r)) ∧
        (delBelow t (c :: r) ≠ .nil → (delBelow t (c :: r)).str.head? = some c) := by
      rintro t c r rfl htd hwt hh
      cases t with
      | nil => exact ⟨Or.inl ⟨by simp [rowsOf], by simp [delBelow]⟩, trivial, fun h => absurd rfl h⟩
      | node u' f' o' z' =>
        have hk : P ++ (f.str ++ c :: r) = (P ++ f.str) ++ c :: r := by simp
        cases hlf : (node u' f' o' z').isLeafWith (c :: r) with
        | true =>
          have hd : delBelow (node u' f' o' z') (c :: r) = .nil := by
            unfold delBelow; dsimp only; rw [if_pos hlf]
          obtain ⟨u2, f2, h2, h3⟩ := (isLeafWith_iff _ _).mp hlf
          cases h2
          rw [hd]
          refine ⟨Or.inr (Or.inr (Or.inl ⟨pl ++ List.range' f.offset f.str.length ++ List.range' f'.offset f'.str.length, u', ?_, ?_, ?_⟩)),
            trivial, fun h => absurd rfl h⟩
          · rw [hk, ← h3]; simp [rowsOf]
          · intro e he _
            simp only [rowsOf, List.append_nil, List.mem_singleton] at he
            rw [he, hk, h3]
          · intro e
            simp only [rowsOf, List.append_nil, List.mem_singleton, List.not_mem_nil, false_iff]
            rintro ⟨rfl, h⟩
            exact h (by rw [hk, h3])
        | false =>
          have hd : delBelow (node u' f' o' z') (c :: r) = (node u' f' o' z').delete (c :: r) := by
            unfold delBelow; dsimp only; rw [if_neg (by simp [hlf])]
          have hent' : (node u' f' o' z').str ≠ [] ∨
              offs (node u' f' o' z') = placeAfter (pl ++ List.range' f.offset f.str.length) := by
            left
            intro h0
            have := hh (by simp)
            rw [h0] at this
            simp at this
          obtain ⟨i1, i2, i3, i4, i5⟩ : DelRows (rowsOf (P ++ f.str) (pl ++ List.range' f.offset f.str.length) (node u' f' o' z'))
                (rowsOf (P ++ f.str) (pl ++ List.range' f.offset f.str.length) ((node u' f' o' z').delete (c :: r)))
                ((P ++ f.str) ++ c :: r) ∧ Skew ((node u' f' o' z').delete (c :: r)) ∧
              offs ((node u' f' o' z').delete (c :: r)) = offs (node u' f' o' z') ∧
              (node u' f' o' z').delete (c :: r) ≠ .nil ∧
              (∀ d, (node u' f' o' z').str.head? = some d → ((node u' f' o' z').delete (c :: r)).str.head? = some d) := by
            rcases htd with h | h
            · subst h
              exact delete_rows (node u' f' o' z') (P ++ f.str) (pl ++ List.range' f.offset f.str.length)
                (c :: r) (by simp) hwt hfs.of_append_right hlen hent' hlf
            · subst h
              exact delete_rows (node u' f' o' z') (P ++ f.str) (pl ++ List.range' f.offset f.str.length)
                (c :: r) (by simp) hwt hfs.of_append_right hlen hent' hlf
          rw [hd, hk]
          exact ⟨i1, i2, fun _ => i5 c (hh (by simp))⟩
    have side : ∀ (t' : PNode) (c c' : Char) (r : Str), fs = f.str ++ c :: r → c ≠ c' →
        (t' ≠ .nil → t'.str.head? = some c') → P ++ f.str ++ [c] <+: P ++ fs ∧
        ∀ e : PRow, (e = (P ++ f.str, pl ++ List.range' f.offset f.str.length, u) ∨
            e ∈ rowsOf (P ++ f.str) (pl ++ List.range' f.offset f.str.length) t') → ¬ P ++ f.str ++ [c] <+: e.1 := by
      intro t' c c' r hr hcc ht'
      refine ⟨by rw [hr]; exact ⟨r, by simp⟩, ?_⟩
      rintro e (rfl | he) hp
      · exact own_not_prefix _ _ hp
      · exact not_prefix_other hcc hp (rows_child ht' he)
    rcases skew_delete_cases u f one zero fs hw hfs with ⟨hn, h⟩ | ⟨h1, h2, h3⟩ | ⟨hr, ho, hz, h⟩ |
      ⟨hr, u1, f1, o1, z1, hoz, h⟩ | ⟨r, hr, h⟩ | ⟨r, hr, h⟩
    · rw [h]
      refine ⟨Or.inl ⟨?_, fun e => Iff.rfl⟩, hw, rfl, by simp, fun c hc => hc⟩
      intro e he hk
      have := rows_prefix _ P pl e he
      rw [hk] at this
      exact hn ((List.prefix_append_right_inj P).mp this)
    · subst h2; subst h3
      simp [isLeafWith, h1] at hleaf
    · rw [h]
      have br : ∀ (t : PNode) (c : Char), t ≠ .nil → (t ≠ .nil → t.str.head? = some c) →
          ∃ e ∈ rowsOf (P ++ f.str) (pl ++ List.range' f.offset f.str.length) t, P ++ f.str ++ [c] <+: e.1 := by
        intro t c htn ht
        cases t with
        | nil => exact absurd rfl htn
        | node u' f' o' z' =>
          refine ⟨_, List.mem_cons_self, rows_child (t := node u' f' o' z') ht List.mem_cons_self⟩
      obtain ⟨a, ha, ha'⟩ := br one '1' ho hh1
      obtain ⟨b, hb, hb'⟩ := br zero '0' hz hh0
      refine ⟨Or.inr (Or.inl ⟨pl ++ List.range' f.offset f.str.length, u, hr ▸ own, ⟨a, ?_, hr ▸ ha'⟩, ⟨b, ?_, hr ▸ hb'⟩,
        hr ▸ uniq, ?_⟩), hw, rfl, by simp, fun c hc => hc⟩
      · rw [rowsOf]; simp [ha]
      · rw [rowsOf]; simp [hb]
      · intro e
        rw [rowsOf, rowsOf, List.mem_cons, List.mem_cons, hr]
        constructor
        · rintro (he | he)
          · exact Or.inr he
          · left
            refine ⟨Or.inr he, fun hk => ?_⟩
            rw [List.mem_append] at he
            rcases he with he | he
            · exact absurd (hk ▸ rows_child hh1 he) (own_not_prefix _ _)
            · exact absurd (hk ▸ rows_child hh0 he) (own_not_prefix _ _)
        · rintro (⟨he | he, hk⟩ | he)
          · exact absurd (by rw [he]) hk
          · exact Or.inr he
          · exact Or.inl he
    · rw [h]
      have hchild : ∃ c, Skew (.node u1 f1 o1 z1) ∧ f1.str.head? = some c ∧
          rowsOf P pl (.node u f one zero) = (P ++ f.str, pl ++ List.range' f.offset f.str.length, u) ::
            rowsOf (P ++ f.str) (pl ++ List.range' f.offset f.str.length) (.node u1 f1 o1 z1) := by
        rcases hoz with ⟨rfl, rfl⟩ | ⟨rfl, rfl⟩
        · exact ⟨'1', hw1, hh1 (by simp), by simp [rowsOf]⟩
        · exact ⟨'0', hw0, hh0 (by simp), by simp [rowsOf]⟩
      obtain ⟨c, hw', hc, hrows⟩ := hchild
      obtain ⟨hbit1, hf1, hwo, hwz, hho, hhz⟩ := id hw'
      have hR : ∀ e ∈ rowsOf (P ++ f.str) (pl ++ List.range' f.offset f.str.length) (.node u1 f1 o1 z1),
          P ++ f.str ++ f1.str <+: e.1 ∧ e.1 ≠ P ++ f.str := by
        intro e he
        refine ⟨rows_prefix _ _ _ e he, fun hk => ?_⟩
        exact own_not_prefix _ _ (hk ▸ rows_child (t := .node u1 f1 o1 z1) (c := c) (fun _ => hc) he)
      have hlen1 : (pl ++ List.range' f.offset f.str.length ++ List.range' f1.offset f1.str.length).length =
          (P ++ f.str ++ f1.str).length := by simp [hl]
      have hql : (P ++ f.str ++ f1.str).length - (P ++ f.str).length = f1.str.length := by
        rw [List.length_append (as := P ++ f.str)]; omega
      have hsplit : pl ++ List.range' f.offset (f.str ++ f1.str).length =
          pl ++ List.range' f.offset f.str.length ++ List.range' (f.offset + f.str.length) f1.str.length := by
        rw [List.length_append, ← List.range'_append_1, List.append_assoc]
      have hmap : rowsOf P pl (.node u1 (newFilter (f.str ++ f1.str) f.offset) o1 z1) =
          (rowsOf (P ++ f.str) (pl ++ List.range' f.offset f.str.length) (.node u1 f1 o1 z1)).map
            (rebase (P ++ f.str) (pl ++ List.range' f.offset f.str.length) (P ++ f.str ++ f1.str)) := by
        simp only [rowsOf, newFilter_str, newFilter_offset, List.map_cons, List.map_append]
        have hch : ∀ t : PNode, rowsOf (P ++ (f.str ++ f1.str)) (pl ++ List.range' f.offset (f.str ++ f1.str).length) t =
            (rowsOf (P ++ f.str ++ f1.str) (pl ++ List.range' f.offset f.str.length ++
              List.range' f1.offset f1.str.length) t).map
                (rebase (P ++ f.str) (pl ++ List.range' f.offset f.str.length) (P ++ f.str ++ f1.str)) := by
          intro t
          have hsh := rows_shift (P ++ (f.str ++ f1.str)) (pl ++ List.range' f.offset (f.str ++ f1.str).length) t
            (P ++ f.str ++ f1.str) (pl ++ List.range' f.offset f.str.length ++ List.range' f1.offset f1.str.length) [] []
          simp only [List.append_nil] at hsh
          rw [hsh]
          apply List.map_congr_left
          intro e he
          have hp := (List.prefix_append _ _).trans (rows_prefix t _ _ e he)
          unfold rebase
          rw [if_pos hp, hpa, hql, hlen1, hsplit]
          obtain ⟨w, hw⟩ := hp
          rw [← hw]
          simp
        rw [hch o1, hch z1]
        congr 1
        unfold rebase
        dsimp only
        rw [if_pos List.prefix_rfl, hpa, hql, ← hlen1, List.drop_length, List.append_nil, hsplit, List.append_assoc P]
      refine ⟨Or.inr (Or.inr (Or.inr ⟨pl ++ List.range' f.offset f.str.length, u, P ++ f.str ++ f1.str,
        pl ++ List.range' f.offset f.str.length ++ List.range' f1.offset f1.str.length, u1, hr ▸ own, ?_, ?_, ?_,
        hr ▸ uniq, ?_, ?_⟩)), ?_, rfl, by simp, ?_⟩
      · rw [hrows]
        apply List.mem_cons_of_mem
        rw [rowsOf]; exact List.mem_cons_self
      · rw [hr]; exact List.prefix_append _ _
      · rw [hr]
        intro hk
        have := congrArg List.length hk
        cases hs : f1.str with
        | nil => rw [hs] at hc; simp at hc
        | cons => rw [hs] at this; simp at this
      · intro e he _ hne
        rw [hrows, List.mem_cons] at he
        rcases he with he | he
        · exact absurd (by rw [he, hr]) hne
        · exact (hR e he).1
      · intro e
        rw [hmap, List.mem_map, hrows, hr]
        constructor
        · rintro ⟨a, ha, rfl⟩; exact ⟨a, List.mem_cons_of_mem _ ha, (hR a ha).2, rfl⟩
        · rintro ⟨a, ha, hne, rfl⟩
          rcases List.mem_cons.mp ha with ha | ha
          · exact absurd (by rw [ha]) hne
          · exact ⟨a, ha, rfl⟩
      · refine ⟨?_, rfl, hwo, hwz, hho, hhz⟩
        intro x hx
        rw [newFilter_str] at hx
        rcases List.mem_append.mp hx with hx | hx
        · exact hbit x hx
        · exact hbit1 x hx
      · intro d hd
        simp only [str, newFilter_str] at hd ⊢
        rw [List.head?_append, hd]; rfl
    · obtain ⟨b1, b2, b3⟩ := below one '1' r hr (Or.inl rfl) hw1 hh1
      obtain ⟨s1, s2⟩ := side zero '1' '0' r hr (by decide) hh0
      rw [h]
      refine ⟨b1.lift _ s1 s2 ?_ ?_, ⟨hbit, hf, b2, hw0, b3, hh0⟩, rfl, by simp, fun c hc => hc⟩
      · intro e
        rw [rowsOf, List.mem_cons, List.mem_append]
        constructor
        · rintro (h | h | h)
          · exact Or.inl (Or.inl h)
          · exact Or.inr h
          · exact Or.inl (Or.inr h)
        · rintro ((h | h) | h)
          · exact Or.inl h
          · exact Or.inr (Or.inr h)
          · exact Or.inr (Or.inl h)
      · intro e
        rw [rowsOf, List.mem_cons, List.mem_append]
        constructor
        · rintro (h | h | h)
          · exact Or.inl (Or.inl h)
          · exact Or.inr h
          · exact Or.inl (Or.inr h)
        · rintro ((h | h) | h)
          · exact Or.inl h
          · exact Or.inr (Or.inr h)
          · exact Or.inr (Or.inl h)
    · obtain ⟨b1, b2, b3⟩ := below zero '0' r hr (Or.inr rfl) hw0 hh0
      obtain ⟨s1, s2⟩ := side one '0' '1' r hr (by decide) hh1
      rw [h]
      refine ⟨b1.lift _ s1 s2 ?_ ?_, ⟨hbit, hf, hw1, b2, hh1, b3⟩, rfl, by simp, fun c hc => hc⟩
      · intro e
        rw [rowsOf, List.mem_cons, List.mem_append, or_assoc]
      · intro e
        rw [rowsOf, List.mem_cons, List.mem_append, or_assoc]
termination_by t => t

/-! ### the trie and its description -/

/-- the trie has the nodes, places and URIs of the description -/
def ShowsPlaced (t : PNode) (v : PlacedTrie) : Prop :=
  t ≠ .nil ∧ Skew t ∧ offs t = 0 ∧
    ∀ m l u, (m, l, u) ∈ rowsOf [] [] t ↔ m ∈ v.nodes ∧ v.place m = l ∧ v.stored m = u

theorem ShowsPlaced.mem {t : PNode} {v : PlacedTrie} (h : ShowsPlaced t v) (e : PRow) :
    e ∈ rowsOf [] [] t ↔ e.1 ∈ v.nodes ∧ e = (e.1, v.place e.1, v.stored e.1) := by
  obtain ⟨m, l, u⟩ := e
  rw [h.2.2.2]
  constructor
  · rintro ⟨h1, rfl, rfl⟩; exact ⟨h1, rfl⟩
  · rintro ⟨h1, h2⟩
    simp only [Prod.mk.injEq, true_and] at h2
    exact ⟨h1, h2.1.symm, h2.2.symm⟩

theorem ShowsPlaced.row {t : PNode} {v : PlacedTrie} (h : ShowsPlaced t v) {m : Str} (hm : m ∈ v.nodes) :
    (m, v.place m, v.stored m) ∈ rowsOf [] [] t := (h.2.2.2 _ _ _).mpr ⟨hm, rfl, rfl⟩

theorem meetAll_least {l : List Str} {q : Str} (hq : q ∈ l) (h : ∀ m ∈ l, q <+: m) : meetAll l = q := by
  obtain ⟨a, b⟩ := meetAll_spec l (by rintro rfl; simp at hq)
  exact prefix_antisymm (a q hq) (b q h)

theorem firstAbove_eq {nodes : List Str} {k q : Str} (hq : q ∈ nodes) (hk : k <+: q)
    (h : ∀ m ∈ nodes, k <+: m → q <+: m) : firstAbove nodes k = q := by
  apply meetAll_least
  · simp [hq, hk]
  · intro m hm
    simp only [List.mem_filter, decide_eq_true_eq] at hm
    exact h m hm.1 hm.2

theorem firstBeyond_eq {nodes : List Str} {k q : Str} (hq : q ∈ nodes) (hk : k <+: q) (hne : k ≠ q)
    (h : ∀ m ∈ nodes, k <+: m → m ≠ k → q <+: m) : firstBeyond nodes k = q := by
  apply meetAll_least
  · simp [hq, hk, Ne.symm hne]
  · intro m hm
    simp only [List.mem_filter, decide_eq_true_eq] at hm
    exact h m hm.1 hm.2.1 hm.2.2

theorem longest_spec (l : List Str) : ∀ a : Str,
    (l.foldl (fun a b => if a.length < b.length then b else a) a = a ∨
      l.foldl (fun a b => if a.length < b.length then b else a) a ∈ l) ∧
    a.length ≤ (l.foldl (fun a b => if a.length < b.length then b else a) a).length ∧
    ∀ b ∈ l, b.length ≤ (l.foldl (fun a b => if a.length < b.length then b else a) a).length := by
  induction l with
  | nil => intro a; simp
  | cons x l ih =>
    intro a
    rw [List.foldl_cons]
    obtain ⟨h1, h2, h3⟩ := ih (if a.length < x.length then x else a)
    refine ⟨?_, ?_, ?_⟩
    · rcases h1 with h | h
      · rw [h]
        split
        · right; simp
        · left; rfl
      · right; exact List.mem_cons_of_mem _ h
    · refine Nat.le_trans ?_ h2
      split <;> omega
    · intro b hb
      rcases List.mem_cons.mp hb with rfl | hb
      · refine Nat.le_trans ?_ h2
        split <;> omega
      · exact h3 b hb

theorem longest_eq {nodes : List Str} {k c q : Str} (hq : q ∈ nodes) (hk : c <+: k) (hc : c <+: q)
    (h : ∀ m ∈ nodes, meet k m <+: c) : longest (nodes.map (meet k)) = c := by
  obtain ⟨h1, -, h3⟩ := longest_spec (nodes.map (meet k)) []
  have hcq : meet k q = c := prefix_antisymm (h q hq) (le_meet hk hc)
  have hle : c.length ≤ (longest (nodes.map (meet k))).length :=
    hcq ▸ h3 (meet k q) (List.mem_map.mpr ⟨q, hq, rfl⟩)
  have hpre : longest (nodes.map (meet k)) <+: c := by
    rcases h1 with h1 | h1
    · have : longest (nodes.map (meet k)) = [] := h1
      rw [this]; exact List.nil_prefix
    · obtain ⟨m, hm, he⟩ := List.mem_map.mp h1
      have : longest (nodes.map (meet k)) = meet k m := he.symm
      rw [this]; exact h m hm
  exact hpre.eq_of_length_le hle

theorem placed_add {t : PNode} {v : PlacedTrie} (h : ShowsPlaced t v) (k uri : Str) (hk : IsBitStr k) :
    ShowsPlaced (t.add k uri) (v.step (.add k uri)) := by
  have h' := h
  obtain ⟨h1, h2, h3, h4⟩ := h'
  obtain ⟨a1, a2, a3, -⟩ := add_rows t [] [] k uri h1 h2 hk rfl (Or.inl (by rw [h3]; rfl))
  refine ⟨add_ne_nil t k uri h1, a2, by rw [a3, h3], ?_⟩
  rw [List.nil_append] at a1
  intro m l u
  unfold PlacedTrie.step
  dsimp only
  rcases a1 with ⟨pl, w, b1, b2, b3⟩ | ⟨q, pl, w, b1, b2, b3, b4, b5⟩ | ⟨c, q, pl, w, b1, b2, b3, b4, b5, b6, b7⟩
  · obtain ⟨c1, c2, c3⟩ := (h4 _ _ _).mp b1
    rw [if_pos c1, b3, h4]
    dsimp only
    constructor
    · rintro (⟨⟨d1, d2, d3⟩, d4⟩ | d)
      · rw [if_neg d4]; exact ⟨d1, d2, d3⟩
      · simp only [Prod.mk.injEq] at d
        obtain ⟨rfl, rfl, rfl⟩ := d
        exact ⟨c1, c2, if_pos rfl⟩
    · rintro ⟨d1, d2, d3⟩
      by_cases hmk : m = k
      · right
        subst hmk
        rw [if_pos rfl] at d3
        rw [← d2, c2, d3]
      · left
        rw [if_neg hmk] at d3
        exact ⟨⟨d1, d2, d3⟩, hmk⟩
  · obtain ⟨c1, c2, c3⟩ := (h4 _ _ _).mp b1
    have hall : ∀ n ∈ v.nodes, k <+: n → q <+: n := fun n hn hkn => b4 _ (h.row hn) hkn
    have hkn : k ∉ v.nodes := fun hkn => b3 (prefix_antisymm b2 (hall k hkn List.prefix_rfl))
    rw [if_neg hkn, if_pos ⟨q, c1, b2⟩, firstAbove_eq c1 b2 hall, b5]
    dsimp only
    have sq : ∀ n, q <+: n → q ++ (k ++ n.drop q.length).drop k.length = n := by
      intro n hn
      rw [List.drop_left]
      obtain ⟨r, rfl⟩ := hn
      rw [List.drop_left]
    -- the row of a node above `q`
    have up : ∀ n, q <+: n → squeeze k q (n, v.place n, v.stored n) =
        (k ++ n.drop q.length, (if k <+: k ++ n.drop q.length then
            (v.place (q ++ (k ++ n.drop q.length).drop k.length)).take k.length ++
            (v.place (q ++ (k ++ n.drop q.length).drop k.length)).drop q.length else v.place (k ++ n.drop q.length)),
          if k ++ n.drop q.length = k then [] else if k <+: k ++ n.drop q.length then
            v.stored (q ++ (k ++ n.drop q.length).drop k.length) else v.stored (k ++ n.drop q.length)) := by
      intro n hn
      unfold squeeze
      rw [if_pos (show q <+: (n, v.place n, v.stored n).1 from hn), if_pos (List.prefix_append _ _), if_pos (List.prefix_append _ _), sq n hn]
      dsimp only
      congr 2
      obtain ⟨r, rfl⟩ := hn
      rw [List.drop_left]
      cases r with
      | nil => simp
      | cons x r => simp
    have other : ∀ n ∈ v.nodes, ¬ q <+: n → ¬ k <+: n := fun n hn hq hkn => hq (hall n hn hkn)
    constructor
    · rintro ⟨e0, he0, he⟩
      obtain ⟨g1, g2⟩ := (h.mem e0).mp he0
      rw [g2] at he
      by_cases hq0 : q <+: e0.1
      · rw [up _ hq0] at he
        simp only [Prod.mk.injEq] at he
        obtain ⟨rfl, rfl, rfl⟩ := he
        refine ⟨List.mem_map.mpr ⟨e0.1, g1, if_pos hq0⟩, rfl, rfl⟩
      · unfold squeeze at he
        rw [if_neg (show ¬ q <+: (e0.1, v.place e0.1, v.stored e0.1).1 from hq0)] at he
        simp only [Prod.mk.injEq] at he
        obtain ⟨rfl, rfl, rfl⟩ := he
        have hnk := other _ g1 hq0
        refine ⟨List.mem_map.mpr ⟨e0.1, g1, if_neg hq0⟩, if_neg hnk, ?_⟩
        rw [if_neg (fun h' : e0.1 = k => hnk (h' ▸ List.prefix_rfl)), if_neg hnk]
    · rintro ⟨d1, d2, d3⟩
      obtain ⟨n, hn, hm⟩ := List.mem_map.mp d1
      refine ⟨_, h.row hn, ?_⟩
      by_cases hq0 : q <+: n
      · rw [if_pos hq0] at hm
        rw [up n hq0, hm, ← d2, ← d3]
      · rw [if_neg hq0] at hm
        subst hm
        have hnk := other _ hn hq0
        unfold squeeze
        rw [if_neg (show ¬ q <+: (n, v.place n, v.stored n).1 from hq0), ← d2, ← d3, if_neg hnk,
          if_neg (fun h' : n = k => hnk (h' ▸ List.prefix_rfl)), if_neg hnk]
  · obtain ⟨c1, c2, c3⟩ := (h4 _ _ _).mp b3
    have hall : ∀ n ∈ v.nodes, c <+: n → q <+: n := fun n hn hkn => b5 _ (h.row hn) hkn
    have hmeet : ∀ n ∈ v.nodes, meet k n <+: c := fun n hn => b6 _ (h.row hn)
    have hno : ∀ n ∈ v.nodes, ¬ k <+: n := by
      intro n hn hkn
      have := hmeet n hn
      rw [meet_of_prefix hkn] at this
      exact b2 (prefix_antisymm b1 this)
    have hkn : k ∉ v.nodes := fun hkn => hno k hkn List.prefix_rfl
    rw [if_neg hkn, if_neg (by rintro ⟨n, hn, hp⟩; exact hno n hn hp), longest_eq c1 b1 b4 hmeet,
      firstAbove_eq c1 b4 hall, b7, c2]
    dsimp only
    have hnc : (∀ e0 ∈ rowsOf [] [] t, e0.1 ≠ c) ↔ c ∉ v.nodes := by
      constructor
      · intro hx hc; exact hx _ (h.row hc) rfl
      · intro hx e0 he0 hc; exact hx (hc ▸ ((h.mem e0).mp he0).1)
    rw [hnc, h4]
    -- a node `c` has the places it should
    have hplc : c ∈ v.nodes → v.place c = pl.take c.length := by
      intro hc
      have : q = c := prefix_antisymm (hall c hc List.prefix_rfl) b4
      subst this
      have hlen := (rows_length t [] [] rfl _ b3).1
      dsimp only at hlen
      rw [c2, ← hlen, List.take_length]
    constructor
    · rintro (⟨d1, d2, d3⟩ | d | ⟨d, d'⟩)
      · have hmk : m ≠ k := fun e => hkn (e ▸ d1)
        refine ⟨by simp [d1], ?_, ?_⟩
        · rw [if_neg hmk]
          by_cases hmc : m = c
          · rw [if_pos hmc, ← d2, hmc, hplc (hmc ▸ d1)]
          · rw [if_neg hmc, d2]
        · rw [if_neg hmk, if_neg (fun hx => hx.2 (hx.1 ▸ d1)), d3]
      · simp only [Prod.mk.injEq] at d
        obtain ⟨rfl, rfl, rfl⟩ := d
        exact ⟨by simp, if_pos rfl, if_pos rfl⟩
      · simp only [Prod.mk.injEq] at d
        obtain ⟨rfl, rfl, rfl⟩ := d
        refine ⟨by simp, ?_, ?_⟩
        · rw [if_neg b2, if_pos rfl]
        · rw [if_neg b2, if_pos ⟨rfl, d'⟩]
    · rintro ⟨d1, d2, d3⟩
      by_cases hmk : m = k
      · right; left
        rw [if_pos hmk] at d2 d3
        rw [hmk, ← d2, ← d3]
      · rw [if_neg hmk] at d2 d3
        by_cases hmn : m ∈ v.nodes
        · left
          refine ⟨hmn, ?_, ?_⟩
          · by_cases hmc : m = c
            · rw [if_pos hmc] at d2
              rw [← d2, hmc, hplc (hmc ▸ hmn)]
            · rw [if_neg hmc] at d2; exact d2
          · rw [if_neg (fun hx => hx.2 (hx.1 ▸ hmn))] at d3; exact d3
        · right; right
          have hmc : m = c := by
            rcases List.mem_cons.mp d1 with h' | h'
            · exact absurd h' hmk
            · rcases List.mem_cons.mp h' with h' | h'
              · exact h'
              · exact absurd h' hmn
          subst hmc
          rw [if_pos rfl] at d2
          rw [if_pos ⟨rfl, hmn⟩] at d3
          exact ⟨by rw [← d2, ← d3], hmn⟩

theorem rows_single {t : PNode} (ht : t ≠ .nil) (hw : Skew t) {k : Str}
    (h : ∀ e ∈ rowsOf [] [] t, e.1 = k) : t.isLeafWith k = true := by
  cases t with
  | nil => exact absurd rfl ht
  | node u f one zero =>
    obtain ⟨_, _, _, _, hh1, hh0⟩ := hw
    have hk : [] ++ f.str = k := h (([] ++ f.str), _, _) (by rw [rowsOf]; exact List.mem_cons_self)
    have none : ∀ (t : PNode) (c : Char), (t ≠ .nil → t.str.head? = some c) →
        (∀ e ∈ rowsOf ([] ++ f.str) ([] ++ List.range' f.offset f.str.length) t, e.1 = k) → t = .nil := by
      intro t c ht hq
      cases t with
      | nil => rfl
      | node u' f' o' z' =>
        exfalso
        have hm : (([] ++ f.str) ++ f'.str, ([] ++ List.range' f.offset f.str.length) ++
            List.range' f'.offset f'.str.length, u') ∈ rowsOf ([] ++ f.str) ([] ++ List.range' f.offset f.str.length) (.node u' f' o' z') := by
          rw [rowsOf]; exact List.mem_cons_self
        have := rows_child ht hm
        rw [hq _ hm, ← hk] at this
        exact own_not_prefix _ _ this
    have n1 := none one '1' hh1 (fun e he => h e (by rw [rowsOf]; simp only [List.mem_cons, List.mem_append]; exact Or.inr (Or.inl he)))
    have n0 := none zero '0' hh0 (fun e he => h e (by rw [rowsOf]; simp only [List.mem_cons, List.mem_append]; exact Or.inr (Or.inr he)))
    subst n1; subst n0
    simpa [isLeafWith] using hk

theorem placed_delete {t : PNode} {v : PlacedTrie} (h : ShowsPlaced t v) (k : Str) (hk : IsBitStr k) :
    ShowsPlaced (t.delete k) (v.step (.delete k)) := by
  have h' := h
  obtain ⟨h1, h2, h3, h4⟩ := h'
  by_cases hleaf : t.isLeafWith k = true
  · obtain ⟨u, f, rfl, hf⟩ := (isLeafWith_iff _ _).mp hleaf
    have hd : (node u f .nil .nil).delete k = node u f .nil .nil := by
      subst hf
      unfold delete
      simp [(hasPrefix_iff f.str f.str).mpr List.prefix_rfl]
    have hall : ∀ n ∈ v.nodes, n = k := by
      intro n hn
      have := h.row hn
      simp only [rowsOf, List.append_nil, List.nil_append, List.mem_singleton, Prod.mk.injEq] at this
      rw [this.1, hf]
    rw [hd]
    unfold PlacedTrie.step
    dsimp only
    rw [if_pos (Or.inr hall)]
    exact h
  · have hl : t.isLeafWith k = false := by simpa using hleaf
    obtain ⟨a1, a2, a3, a4, -⟩ := delete_rows t [] [] k h1 h2 hk rfl (Or.inr (by rw [h3]; rfl)) hl
    refine ⟨a4, a2, by rw [a3, h3], ?_⟩
    rw [List.nil_append] at a1
    have hnall : ¬ ∀ n ∈ v.nodes, n = k := by
      intro hall
      exact hleaf (rows_single h1 h2 fun e he => hall _ ((h.mem e).mp he).1)
    intro m l u
    unfold PlacedTrie.step
    dsimp only
    have brE : ∀ (c : Char), (∃ e ∈ rowsOf [] [] t, k ++ [c] <+: e.1) ↔ ∃ n ∈ v.nodes, k ++ [c] <+: n := by
      intro c
      constructor
      · rintro ⟨e, he, hp⟩; exact ⟨e.1, ((h.mem e).mp he).1, hp⟩
      · rintro ⟨n, hn, hp⟩; exact ⟨_, h.row hn, hp⟩
    rcases a1 with ⟨b1, b2⟩ | ⟨pl, w, b1, b2, b3, b4, b5⟩ | ⟨pl, w, b1, b2, b3⟩ |
      ⟨pl, w, q, l', w', b1, b2, b3, b4, b5, b6, b7⟩
    · have hkn : k ∉ v.nodes := fun hx => b1 _ (h.row hx) rfl
      rw [if_pos (Or.inl hkn), b2, h4]
    · obtain ⟨c1, c2, c3⟩ := (h4 _ _ _).mp b1
      rw [if_neg (by rintro (hx | hx); exact hx c1; exact hnall hx), if_pos ⟨(brE _).mp b2, (brE _).mp b3⟩, b5, h4]
      dsimp only
      constructor
      · rintro (⟨⟨d1, d2, d3⟩, d4⟩ | d)
        · rw [if_neg d4]; exact ⟨d1, d2, d3⟩
        · simp only [Prod.mk.injEq] at d
          obtain ⟨rfl, rfl, rfl⟩ := d
          exact ⟨c1, c2, if_pos rfl⟩
      · rintro ⟨d1, d2, d3⟩
        by_cases hmk : m = k
        · right
          subst hmk
          rw [if_pos rfl] at d3
          rw [← d2, c2, d3]
        · left
          rw [if_neg hmk] at d3
          exact ⟨⟨d1, d2, d3⟩, hmk⟩
    · obtain ⟨c1, c2, c3⟩ := (h4 _ _ _).mp b1
      have hall : ∀ n ∈ v.nodes, k <+: n → n = k := fun n hn hkn => b2 _ (h.row hn) hkn
      have nobr : ¬ ((∃ n ∈ v.nodes, k ++ ['1'] <+: n) ∧ ∃ n ∈ v.nodes, k ++ ['0'] <+: n) := by
        rintro ⟨⟨n, hn, hp⟩, -⟩
        have := hall n hn ((List.prefix_append _ _).trans hp)
        exact own_not_prefix _ _ (this ▸ hp)
      rw [if_neg (by rintro (hx | hx); exact hx c1; exact hnall hx), if_neg nobr,
        if_neg (by rintro ⟨n, hn, hp, hne⟩; exact hne (hall n hn hp)), b3, h4]
      dsimp only
      rw [List.mem_filter]
      simp only [ne_eq, decide_not, Bool.not_eq_true', decide_eq_false_iff_not]
      constructor
      · rintro ⟨⟨d1, d2, d3⟩, d4⟩; exact ⟨⟨d1, d4⟩, d2, d3⟩
      · rintro ⟨⟨d1, d4⟩, d2, d3⟩; exact ⟨⟨d1, d2, d3⟩, d4⟩
    · obtain ⟨c1, c2, c3⟩ := (h4 _ _ _).mp b1
      obtain ⟨g1, g2, g3⟩ := (h4 _ _ _).mp b2
      have hall : ∀ n ∈ v.nodes, k <+: n → n ≠ k → q <+: n := fun n hn hkn hne => b6 _ (h.row hn) hkn hne
      obtain ⟨c, r, hq⟩ := proper_prefix_cases b3 (Ne.symm b4)
      have nobr : ¬ ((∃ n ∈ v.nodes, k ++ ['1'] <+: n) ∧ ∃ n ∈ v.nodes, k ++ ['0'] <+: n) := by
        have same : ∀ d : Char, (∃ n ∈ v.nodes, k ++ [d] <+: n) → d = c := by
          rintro d ⟨n, hn, hp⟩
          have hqn := hall n hn ((List.prefix_append _ _).trans hp) (fun e => own_not_prefix _ _ (e ▸ hp))
          have hc : k ++ [c] <+: n := (show k ++ [c] <+: q by rw [hq]; exact ⟨r, by simp⟩).trans hqn
          exact Classical.byContradiction fun hne => not_prefix_other hne hp hc
        rintro ⟨x, y⟩
        exact absurd ((same _ x).trans (same _ y).symm) (by decide)
      rw [if_neg (by rintro (hx | hx); exact hx c1; exact hnall hx), if_neg nobr,
        if_pos ⟨q, g1, b3, Ne.symm b4⟩, firstBeyond_eq g1 b3 b4 hall, b7, c2]
      dsimp only
      rw [List.mem_filter]
      simp only [ne_eq, decide_not, Bool.not_eq_true', decide_eq_false_iff_not]
      constructor
      · rintro ⟨e0, he0, hne, he⟩
        obtain ⟨x1, x2⟩ := (h.mem e0).mp he0
        rw [x2] at he
        unfold rebase at he
        dsimp only at he
        by_cases hq0 : q <+: e0.1
        · rw [if_pos hq0] at he
          simp only [Prod.mk.injEq] at he
          obtain ⟨rfl, rfl, rfl⟩ := he
          exact ⟨⟨x1, hne⟩, if_pos hq0, rfl⟩
        · rw [if_neg hq0] at he
          simp only [Prod.mk.injEq] at he
          obtain ⟨rfl, rfl, rfl⟩ := he
          exact ⟨⟨x1, hne⟩, if_neg hq0, rfl⟩
      · rintro ⟨⟨d1, d4⟩, d2, d3⟩
        refine ⟨_, h.row d1, d4, ?_⟩
        unfold rebase
        dsimp only
        by_cases hq0 : q <+: m
        · rw [if_pos hq0] at d2
          rw [if_pos hq0, ← d2, ← d3]
        · rw [if_neg hq0] at d2
          rw [if_neg hq0, ← d2, ← d3]

end Gosstrak
