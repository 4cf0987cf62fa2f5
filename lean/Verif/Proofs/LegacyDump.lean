import Verif.Spec.LegacyDump
import Verif.Model.LegacyDump
import Verif.Proofs.Dump
import Verif.Proofs.Subs

/-! Reading the text of the legacy engine. -/
namespace Gosstrak

/-! ### writing literals -/

theorem hexDigit_digitChar : ∀ v < 16, LowerHex (Nat.digitChar v) v := by
  unfold LowerHex
  decide

theorem HexFrom.snoc {n s m d v} (h : HexFrom n s m) (hd : LowerHex d v) : HexFrom n (s ++ [d]) (16 * m + v) := by
  induction h with
  | nil => exact .cons hd .nil
  | cons h1 _ ih => exact .cons h1 ih

theorem hexText_length : ∀ k n, (hexText k n).length = k
  | 0, _ => rfl
  | k + 1, n => by simp [hexText, hexText_length k]

theorem hexText_value : ∀ (k n a : Nat), n < 16 ^ k → HexFrom a (hexText k n) (16 ^ k * a + n)
  | 0, n, a, h => by
    have : n = 0 := by simpa using h
    subst this
    simpa [hexText] using HexFrom.nil
  | k + 1, n, a, h => by
    have h1 := (hexText_value k (n / 16) a (by rw [Nat.div_lt_iff_lt_mul (by decide)]; rwa [Nat.pow_succ] at h)).snoc
      (hexDigit_digitChar (n % 16) (Nat.mod_lt _ (by decide)))
    have e : 16 * (16 ^ k * a + n / 16) + n % 16 = 16 ^ (k + 1) * a + n := by
      have e1 : 16 ^ (k + 1) * a = 16 * (16 ^ k * a) := by rw [Nat.pow_succ, Nat.mul_comm (16 ^ k) 16, Nat.mul_assoc]
      have := Nat.div_add_mod n 16
      omega
    rw [e] at h1
    exact h1

theorem quoteChar_literal {p : Char → Bool} (hp : AsciiPrint p) (c : Char) : LiteralChar c (quoteChar p c) := by
  have hex : ∀ k, c.toNat < 16 ^ k → HexFrom 0 (hexText k c.toNat) c.toNat := by
    intro k h
    simpa using hexText_value k c.toNat 0 h
  unfold quoteChar
  by_cases h0 : c = '"' ∨ c = '\\'
  · rw [if_pos h0]
    rcases h0 with rfl | rfl
    · exact .short (by decide)
    · exact .short (by decide)
  rw [if_neg h0]
  rw [not_or] at h0
  by_cases hpc : p c = true
  · rw [if_pos hpc]
    refine .plain h0.1 h0.2 ?_
    rintro rfl
    have := (hp '\n' (by decide)).mp hpc
    exact absurd this (by decide)
  rw [if_neg hpc]
  by_cases h : c.toNat = 7
  · rw [if_pos h]; exact .short (by rw [h]; decide)
  rw [if_neg h]; clear h
  by_cases h : c.toNat = 8
  · rw [if_pos h]; exact .short (by rw [h]; decide)
  rw [if_neg h]; clear h
  by_cases h : c.toNat = 12
  · rw [if_pos h]; exact .short (by rw [h]; decide)
  rw [if_neg h]; clear h
  by_cases h : c.toNat = 10
  · rw [if_pos h]; exact .short (by rw [h]; decide)
  rw [if_neg h]; clear h
  by_cases h : c.toNat = 13
  · rw [if_pos h]; exact .short (by rw [h]; decide)
  rw [if_neg h]; clear h
  by_cases h : c.toNat = 9
  · rw [if_pos h]; exact .short (by rw [h]; decide)
  rw [if_neg h]; clear h
  by_cases h : c.toNat = 11
  · rw [if_pos h]; exact .short (by rw [h]; decide)
  rw [if_neg h]; clear h
  by_cases h : c.toNat < 32 ∨ c.toNat = 127
  · rw [if_pos h]
    exact .hex (hexText_length _ _) (by omega) (hex 2 (by omega))
  rw [if_neg h]; clear h
  by_cases h : c.toNat < 65536
  · rw [if_pos h]
    exact .small (hexText_length _ _) (hex 4 (by omega))
  rw [if_neg h]; clear h
  refine .large (hexText_length _ _) (hex 8 ?_)
  have : c.toNat < 1114112 := by
    rcases c.valid with h | h
    · have : c.toNat < 55296 := h
      omega
    · exact h.2
  omega

theorem quote_literal {p : Char → Bool} (hp : AsciiPrint p) (s : Str) : Literal s (quote p s) := by
  refine ⟨s.map (quoteChar p), ?_, by simp [quote, List.flatMap]⟩
  rw [List.forall₂_map_right_iff]
  exact List.forall₂_same.mpr fun c _ => quoteChar_literal hp c

/-! ### reading literals -/

theorem hexFrom_unique {n s m m'} (h : HexFrom n s m) (h' : HexFrom n s m') : m = m' := by
  induction h generalizing m' with
  | nil => cases h'; rfl
  | cons h1 _ ih =>
    cases h' with
    | cons g1 g2 =>
      have : ∀ {c : Char} {v w : Nat}, LowerHex c v → LowerHex c w → v = w := by
        intro c v w h g
        have e1 : ∀ {c : Char}, c ≤ '9' → 'a' ≤ c → False := by
          intro c h g
          have h1 : c.toNat ≤ 57 := h
          have h2 : 97 ≤ c.toNat := g
          omega
        rcases h with ⟨a1, a2, a3⟩ | ⟨a1, a2, a3⟩ <;> rcases g with ⟨b1, b2, b3⟩ | ⟨b1, b2, b3⟩
        · omega
        · exact (e1 a2 b1).elim
        · exact (e1 b2 a1).elim
        · omega
      rw [this g1 h1] at g2
      exact ih g2

theorem char_eq_of_toNat {c c' : Char} (h : c.toNat = c'.toNat) : c = c' := by
  rw [← Char.ofNat_toNat c, ← Char.ofNat_toNat c', h]

theorem short_unique {c c' : Char} {e : Char} (h : (e, c.toNat) ∈ [('a', 7), ('b', 8), ('f', 12), ('n', 10), ('r', 13), ('t', 9), ('v', 11),
    ('\\', 92), ('"', 34)]) (h' : (e, c'.toNat) ∈ [('a', 7), ('b', 8), ('f', 12), ('n', 10), ('r', 13), ('t', 9), ('v', 11),
    ('\\', 92), ('"', 34)]) : c = c' := by
  apply char_eq_of_toNat
  simp only [List.mem_cons, Prod.mk.injEq, List.not_mem_nil, or_false] at h h'
  rcases h with ⟨rfl, h⟩ | ⟨rfl, h⟩ | ⟨rfl, h⟩ | ⟨rfl, h⟩ | ⟨rfl, h⟩ | ⟨rfl, h⟩ | ⟨rfl, h⟩ | ⟨rfl, h⟩ | ⟨rfl, h⟩ <;>
    simpa [h, eq_comm] using h'

theorem short_not {c : Char} {e} (h : (e, c.toNat) ∈ [('a', 7), ('b', 8), ('f', 12), ('n', 10), ('r', 13), ('t', 9), ('v', 11),
    ('\\', 92), ('"', 34)]) : e ≠ 'x' ∧ e ≠ 'u' ∧ e ≠ 'U' ∧ e ≠ '[' ∧ e ≠ '\n' := by
  simp only [List.mem_cons, Prod.mk.injEq, List.not_mem_nil, or_false] at h
  rcases h with ⟨rfl, h⟩ | ⟨rfl, h⟩ | ⟨rfl, h⟩ | ⟨rfl, h⟩ | ⟨rfl, h⟩ | ⟨rfl, h⟩ | ⟨rfl, h⟩ | ⟨rfl, h⟩ | ⟨rfl, h⟩ <;> decide

/-- the text of a character is read in one way -/
theorem literalChar_unique {c c' : Char} {t t' r r' : Str} (h : LiteralChar c t) (h' : LiteralChar c' t')
    (e : t ++ r = t' ++ r') : c = c' ∧ r = r' := by
  have hx : ∀ {ds ds' : Str} {k : Nat}, ds.length = k → ds'.length = k → HexFrom 0 ds c.toNat → HexFrom 0 ds' c'.toNat →
      ds ++ r = ds' ++ r' → c = c' ∧ r = r' := by
    intro ds ds' k l1 l2 h1 h2 e
    obtain ⟨rfl, rfl⟩ := List.append_inj e (l1.trans l2.symm)
    exact ⟨char_eq_of_toNat (hexFrom_unique h1 h2), rfl⟩
  cases h with
  | plain a1 a2 a3 =>
    cases h' with
    | plain b1 b2 b3 => simpa using e
    | short b => simp only [List.cons_append, List.nil_append, List.cons.injEq] at e; exact absurd e.1 a2
    | hex _ _ _ => simp only [List.cons_append, List.nil_append, List.cons.injEq] at e; exact absurd e.1 a2
    | small _ _ => simp only [List.cons_append, List.nil_append, List.cons.injEq] at e; exact absurd e.1 a2
    | large _ _ => simp only [List.cons_append, List.nil_append, List.cons.injEq] at e; exact absurd e.1 a2
  | short a =>
    have na := short_not a
    cases h' with
    | plain b1 b2 b3 => simp only [List.cons_append, List.nil_append, List.cons.injEq] at e; exact absurd e.1.symm b2
    | short b =>
      simp only [List.cons_append, List.nil_append, List.cons.injEq, true_and] at e
      obtain ⟨rfl, e⟩ := e
      exact ⟨short_unique a b, e⟩
    | hex _ _ _ => simp only [List.cons_append, List.nil_append, List.cons.injEq, true_and] at e; exact absurd e.1 na.1
    | small _ _ => simp only [List.cons_append, List.nil_append, List.cons.injEq, true_and] at e; exact absurd e.1 na.2.1
    | large _ _ => simp only [List.cons_append, List.nil_append, List.cons.injEq, true_and] at e; exact absurd e.1 na.2.2.1
  | hex a1 a2 a3 =>
    cases h' with
    | plain b1 b2 b3 => simp only [List.cons_append, List.nil_append, List.cons.injEq] at e; exact absurd e.1.symm b2
    | short b =>
      simp only [List.cons_append, List.nil_append, List.cons.injEq, true_and] at e
      exact absurd e.1.symm (short_not b).1
    | hex b1 b2 b3 => simp only [List.cons_append, List.cons.injEq, true_and] at e; exact hx a1 b1 a3 b3 e
    | small _ _ => simp at e
    | large _ _ => simp at e
  | small a1 a2 =>
    cases h' with
    | plain b1 b2 b3 => simp only [List.cons_append, List.nil_append, List.cons.injEq] at e; exact absurd e.1.symm b2
    | short b =>
      simp only [List.cons_append, List.nil_append, List.cons.injEq, true_and] at e
      exact absurd e.1.symm (short_not b).2.1
    | hex _ _ _ => simp at e
    | small b1 b2 => simp only [List.cons_append, List.cons.injEq, true_and] at e; exact hx a1 b1 a2 b2 e
    | large _ _ => simp at e
  | large a1 a2 =>
    cases h' with
    | plain b1 b2 b3 => simp only [List.cons_append, List.nil_append, List.cons.injEq] at e; exact absurd e.1.symm b2
    | short b =>
      simp only [List.cons_append, List.nil_append, List.cons.injEq, true_and] at e
      exact absurd e.1.symm (short_not b).2.2.1
    | hex _ _ _ => simp at e
    | small _ _ => simp at e
    | large b1 b2 => simp only [List.cons_append, List.cons.injEq, true_and] at e; exact hx a1 b1 a2 b2 e

theorem literalChar_head {c : Char} {t r : Str} (h : LiteralChar c t) : ∀ x, t ++ r ≠ '"' :: x := by
  intro x e
  cases h with
  | plain b1 b2 b3 => simp only [List.cons_append, List.cons.injEq] at e; exact b1 e.1
  | short _ => simp at e
  | hex _ _ _ => simp at e
  | small _ _ => simp at e
  | large _ _ => simp at e

theorem body_unique : ∀ {s s' : Str} {parts parts' : List Str} {r r' : Str}, List.Forall₂ LiteralChar s parts →
    List.Forall₂ LiteralChar s' parts' → parts.flatten ++ '"' :: r = parts'.flatten ++ '"' :: r' → s = s' ∧ r = r'
  | _, _, _, _, _, _, .nil, .nil, e => ⟨rfl, by simpa using e⟩
  | _, _, _, _, r, r', .nil, .cons h _, e => by
    simp only [List.flatten_nil, List.nil_append, List.flatten_cons, List.append_assoc] at e
    exact absurd e.symm (literalChar_head h _)
  | _, _, _, _, r, r', .cons h _, .nil, e => by
    simp only [List.flatten_nil, List.nil_append, List.flatten_cons, List.append_assoc] at e
    exact absurd e (literalChar_head h _)
  | _, _, _, _, r, r', .cons h1 h2, .cons g1 g2, e => by
    simp only [List.flatten_cons, List.append_assoc] at e
    obtain ⟨rfl, e⟩ := literalChar_unique h1 g1 e
    obtain ⟨rfl, e⟩ := body_unique h2 g2 e
    exact ⟨rfl, e⟩

theorem literal_unique {s s' t t' r r' : Str} (h : Literal s t) (h' : Literal s' t') (e : t ++ r = t' ++ r') : s = s' ∧ r = r' := by
  obtain ⟨ps, h1, rfl⟩ := h
  obtain ⟨ps', h2, rfl⟩ := h'
  simp only [List.cons_append, List.append_assoc, List.nil_append, List.cons.injEq, true_and] at e
  exact body_unique h1 h2 e

/-! ### where a list of literals begins -/

/-- whether the number of quotes without a backslash is odd -/
def scan : Str → Bool
  | [] => false
  | '\\' :: _ :: s => scan s
  | '"' :: s => !scan s
  | _ :: s => scan s

theorem scan_plain {c : Char} (h1 : c ≠ '"') (h2 : c ≠ '\\') (s : Str) : scan (c :: s) = scan s := by
  rw [scan.eq_def]
  split
  · rename_i h; cases h
  · rename_i h; cases h; exact absurd rfl h2
  · rename_i h; cases h; exact absurd rfl h1
  · rename_i h; cases h; rfl

theorem scan_escape (e : Char) (s : Str) : scan ('\\' :: e :: s) = scan s := rfl

theorem scan_quote (s : Str) : scan ('"' :: s) = !scan s := rfl

/-- behind every opening bracket there is an odd number of such quotes -/
def BracketsInside (s : Str) : Prop := ∀ z r, s = z ++ '[' :: r → scan r = true

theorem inside_cons {c : Char} {s : Str} (hc : c ≠ '[') (h : BracketsInside s) : BracketsInside (c :: s)
  | [], r, e => by simp only [List.nil_append, List.cons.injEq] at e; exact absurd e.1 hc
  | d :: z, r, e => by simp only [List.cons_append, List.cons.injEq] at e; exact h z r e.2

theorem inside_append {s : Str} (h : BracketsInside s) : ∀ {t : Str}, '[' ∉ t → BracketsInside (t ++ s)
  | [], _ => h
  | c :: t, hc => inside_cons (fun e => hc (by simp [e])) (inside_append h fun hx => hc (by simp [hx]))

theorem hexDigit_not {c : Char} {v : Nat} (h : LowerHex c v) : c ≠ '"' ∧ c ≠ '\\' ∧ c ≠ '[' ∧ c ≠ '\n' := by
  refine ⟨?_, ?_, ?_, ?_⟩ <;> rintro rfl <;> unfold LowerHex at h <;> revert h <;>
    · rintro (⟨h1, h2, -⟩ | ⟨h1, h2, -⟩) <;> revert h1 h2 <;> decide

theorem hexFrom_not {n s m} (h : HexFrom n s m) : '[' ∉ s ∧ '\n' ∉ s ∧ ∀ r, scan (s ++ r) = scan r := by
  induction h with
  | nil => simp
  | cons h1 _ ih =>
    obtain ⟨a, b, c, d⟩ := hexDigit_not h1
    refine ⟨?_, ?_, fun r => ?_⟩
    · simp [ih.1, Ne.symm c]
    · simp [ih.2.1, Ne.symm d]
    · rw [List.cons_append, scan_plain a b, ih.2.2]

theorem literalChar_scan {c : Char} {t s : Str} (h : LiteralChar c t) (hs : scan s = true) (hi : BracketsInside s) :
    scan (t ++ s) = true ∧ BracketsInside (t ++ s) := by
  cases h with
  | plain b1 b2 b3 =>
    refine ⟨by rw [List.cons_append, scan_plain b1 b2]; exact hs, ?_⟩
    intro z r e
    cases z with
    | nil =>
      simp only [List.cons_append, List.nil_append, List.cons.injEq] at e
      rw [← e.2]; exact hs
    | cons d z =>
      simp only [List.cons_append, List.nil_append, List.cons.injEq] at e
      exact hi z r e.2
  | short a =>
    exact ⟨by simpa [scan_escape] using hs, inside_append hi (by simp [Ne.symm (short_not a).2.2.2.1])⟩
  | hex a1 a2 a3 =>
    obtain ⟨b1, -, b2⟩ := hexFrom_not a3
    exact ⟨by rw [List.cons_append, List.cons_append, scan_escape, b2]; exact hs, inside_append hi (by simp [b1])⟩
  | small a1 a3 =>
    obtain ⟨b1, -, b2⟩ := hexFrom_not a3
    exact ⟨by rw [List.cons_append, List.cons_append, scan_escape, b2]; exact hs, inside_append hi (by simp [b1])⟩
  | large a1 a3 =>
    obtain ⟨b1, -, b2⟩ := hexFrom_not a3
    exact ⟨by rw [List.cons_append, List.cons_append, scan_escape, b2]; exact hs, inside_append hi (by simp [b1])⟩

theorem body_scan {s : Str} (hs : scan s = true) (hi : BracketsInside s) : ∀ {w : Str} {parts : List Str},
    List.Forall₂ LiteralChar w parts → scan (parts.flatten ++ s) = true ∧ BracketsInside (parts.flatten ++ s)
  | _, _, .nil => ⟨hs, hi⟩
  | _, _, .cons h1 h2 => by
    obtain ⟨a, b⟩ := body_scan hs hi h2
    simpa using literalChar_scan h1 a b

theorem literal_scan {w t s : Str} (h : Literal w t) (hs : scan s = false) (hi : BracketsInside s) :
    scan (t ++ s) = false ∧ BracketsInside (t ++ s) := by
  obtain ⟨ps, h1, rfl⟩ := h
  obtain ⟨a, b⟩ := body_scan (s := '"' :: s) (by rw [scan_quote, hs]; rfl) (inside_cons (by decide) hi) h1
  have e : '"' :: (ps.flatten ++ ['"']) ++ s = '"' :: (ps.flatten ++ '"' :: s) := by simp
  rw [e]
  exact ⟨by rw [scan_quote, a]; rfl, inside_cons (by decide) b⟩

/-- the literals of a list and the closing bracket -/
def listTail (lits : List Str) : Str := [' '].intercalate lits ++ [']']

theorem listTail_cons₂ (a b : Str) (l : List Str) : listTail (a :: b :: l) = a ++ ' ' :: listTail (b :: l) := by
  simp [listTail, List.intercalate, List.intersperse]

theorem listTail_one (a : Str) : listTail [a] = a ++ [']'] := by simp [listTail, List.intercalate]

theorem list_scan : ∀ {ws lits : List Str}, List.Forall₂ Literal ws lits →
    scan (listTail lits) = false ∧ BracketsInside (listTail lits)
  | _, _, .nil => ⟨by decide, inside_cons (by decide) fun z r e => by simp at e⟩
  | _, _, .cons h .nil => by
    rw [listTail_one]
    exact literal_scan h (by decide) (inside_cons (by decide) fun z r e => by simp at e)
  | _, _, .cons h (.cons h1 h2) => by
    obtain ⟨a, b⟩ := list_scan (.cons h1 h2)
    rw [listTail_cons₂]
    exact literal_scan h (by rw [scan_plain (by decide) (by decide)]; exact a) (inside_cons (by decide) b)

theorem literal_head {w t r : Str} (h : Literal w t) : ∃ x, t ++ r = '"' :: x := by
  obtain ⟨ps, _, rfl⟩ := h
  exact ⟨_, rfl⟩

theorem list_unique : ∀ {ws ws' lits lits' : List Str}, List.Forall₂ Literal ws lits → List.Forall₂ Literal ws' lits' →
    listTail lits = listTail lits' → ws = ws'
  | _, _, _, _, .nil, .nil, _ => rfl
  | _, _, _, _, .nil, .cons h .nil, e => by
    rw [listTail_one] at e
    obtain ⟨x, hx⟩ := literal_head (r := [']']) h
    rw [hx] at e
    exact absurd e (by simp [listTail, List.intercalate])
  | _, _, _, _, .nil, .cons h (.cons h1 h2), e => by
    rw [listTail_cons₂] at e
    obtain ⟨x, hx⟩ := literal_head h
    rw [hx] at e
    exact absurd e (by simp [listTail, List.intercalate])
  | _, _, _, _, .cons h .nil, .nil, e => by
    rw [listTail_one] at e
    obtain ⟨x, hx⟩ := literal_head (r := [']']) h
    rw [hx] at e
    exact absurd e (by simp [listTail, List.intercalate])
  | _, _, _, _, .cons h (.cons h1 h2), .nil, e => by
    rw [listTail_cons₂] at e
    obtain ⟨x, hx⟩ := literal_head h
    rw [hx] at e
    exact absurd e (by simp [listTail, List.intercalate])
  | _, _, _, _, .cons h .nil, .cons g .nil, e => by
    rw [listTail_one, listTail_one] at e
    rw [(literal_unique h g e).1]
  | _, _, _, _, .cons h .nil, .cons g (.cons g1 g2), e => by
    rw [listTail_one, listTail_cons₂] at e
    have := (literal_unique h g e).2
    simp at this
  | _, _, _, _, .cons h (.cons h1 h2), .cons g .nil, e => by
    rw [listTail_one, listTail_cons₂] at e
    have := (literal_unique h g e).2
    simp at this
  | _, _, _, _, .cons h (.cons h1 h2), .cons g (.cons g1 g2), e => by
    rw [listTail_cons₂, listTail_cons₂] at e
    obtain ⟨rfl, e⟩ := literal_unique h g e
    rw [list_unique (.cons h1 h2) (.cons g1 g2) (by simpa using e)]

/-! ### lines -/

theorem bracket_once {k k' : Str} {ws ws' lits lits' : List Str} (h : List.Forall₂ Literal ws lits)
    (h' : List.Forall₂ Literal ws' lits') : ∀ {a : Str}, k' = k ++ a →
    k ++ ' ' :: '[' :: listTail lits = k' ++ ' ' :: '[' :: listTail lits' → a = []
  | [], _, _ => rfl
  | c :: a, e1, e => by
    rw [e1, List.append_assoc] at e
    have e2 := List.append_cancel_left e
    simp only [List.cons_append, List.cons.injEq] at e2
    cases a with
    | nil => simp at e2
    | cons d a =>
      have e3 := e2.2
      simp only [List.cons_append, List.cons.injEq] at e3
      have := (list_scan h).2 (a ++ [' ']) (listTail lits') (by rw [e3.2]; simp)
      rw [(list_scan h').1] at this
      exact absurd this (by decide)

theorem line_unique {e e' : Str × List Str} {t : Str} (h : LegacyLine e t) (h' : LegacyLine e' t) : e = e' := by
  obtain ⟨k, ws⟩ := e
  obtain ⟨k', ws'⟩ := e'
  obtain ⟨lits, h1, rfl⟩ := h
  obtain ⟨lits', h2, e⟩ := h'
  have norm : ∀ (k : Str) (lits : List Str), "--".toList ++ k ++ " [".toList ++ [' '].intercalate lits ++ "]".toList =
      '-' :: '-' :: (k ++ ' ' :: '[' :: listTail lits) := by
    intro k lits
    simp [listTail]
  dsimp only at e h1 h2
  rw [norm, norm] at e
  simp only [List.cons.injEq, true_and] at e
  rcases List.append_eq_append_iff.mp e with ⟨a, e1, -⟩ | ⟨a, e1, -⟩
  · have := bracket_once h1 h2 e1 e
    subst this
    rw [List.append_nil] at e1
    subst e1
    have e := List.append_cancel_left e
    simp only [List.cons.injEq, true_and] at e
    rw [list_unique h1 h2 e]
  · have := bracket_once h2 h1 e1 e.symm
    subst this
    rw [List.append_nil] at e1
    subst e1
    have e := List.append_cancel_left e
    simp only [List.cons.injEq, true_and] at e
    rw [list_unique h1 h2 e]

theorem literal_no_newline {w t : Str} (h : Literal w t) : '\n' ∉ t := by
  obtain ⟨ps, h, rfl⟩ := h
  have : '\n' ∉ ps.flatten := by
    induction h with
    | nil => simp
    | cons h1 _ ih =>
      simp only [List.flatten_cons, List.mem_append, not_or]
      refine ⟨?_, ih⟩
      cases h1 with
      | plain b1 b2 b3 => simp [Ne.symm b3]
      | short a => simp [Ne.symm (short_not a).2.2.2.2]
      | hex _ _ a => simp [(hexFrom_not a).2.1]
      | small _ a => simp [(hexFrom_not a).2.1]
      | large _ a => simp [(hexFrom_not a).2.1]
  simp [this]

theorem list_no_newline : ∀ {ws lits : List Str}, List.Forall₂ Literal ws lits → '\n' ∉ listTail lits
  | _, _, .nil => by decide
  | _, _, .cons h .nil => by
    rw [listTail_one]
    simp [literal_no_newline h]
  | _, _, .cons h (.cons h1 h2) => by
    rw [listTail_cons₂]
    simp [literal_no_newline h, list_no_newline (.cons h1 h2)]

theorem line_no_newline {e : Str × List Str} {t : Str} (h : LegacyLine e t) (he : '\n' ∉ e.1) : '\n' ∉ t := by
  obtain ⟨lits, h1, rfl⟩ := h
  have := list_no_newline h1
  simp only [listTail, List.mem_append, not_or] at this
  simp [he, this.1]

/-- a text is read in one way -/
theorem legacyText_unique : ∀ {es es' : List (Str × List Str)} {t : Str}, (∀ e ∈ es, '\n' ∉ e.1) → (∀ e ∈ es', '\n' ∉ e.1) →
    LegacyText es t → LegacyText es' t → es = es'
  | [], [], _, _, _, _, _ => rfl
  | [], l' :: ls', text, _, _, ⟨ss, h1, e1⟩, ⟨ss', h2, e2⟩ => by
    cases h1
    cases h2
    rw [e1] at e2
    simp at e2
  | l :: ls, [], text, _, _, ⟨ss, h1, e1⟩, ⟨ss', h2, e2⟩ => by
    cases h1
    cases h2
    rw [e2] at e1
    simp at e1
  | l :: ls, l' :: ls', text, c1, c2, ⟨ss, h1, e1⟩, ⟨ss', h2, e2⟩ => by
    cases h1 with
    | cons a1 a2 =>
      rename_i s ss
      cases h2 with
      | cons b1 b2 =>
        rename_i s' ss'
        rw [e1] at e2
        simp only [List.flatMap_cons, List.append_assoc, List.singleton_append] at e2
        obtain ⟨rfl, e3⟩ := split_at (line_no_newline a1 (c1 l (by simp))) (line_no_newline b1 (c2 l' (by simp))) e2
        rw [line_unique a1 b1, legacyText_unique (fun x hx => c1 x (by simp [hx])) (fun x hx => c2 x (by simp [hx]))
          ⟨ss, a2, rfl⟩ ⟨ss', b2, e3⟩]

/-! ### the text of the engine -/

theorem quoteList_line {p : Char → Bool} (hp : AsciiPrint p) (k : Str) (l : List Str) :
    LegacyLine (k, l) (['-', '-'] ++ k ++ [' '] ++ quoteList p l) := by
  refine ⟨l.map (quote p), ?_, by simp [quoteList]⟩
  rw [List.forall₂_map_right_iff]
  exact List.forall₂_same.mpr fun s _ => quote_literal hp s

theorem legacyDump_text {p : Char → Bool} (hp : AsciiPrint p) (m : Subs) :
    LegacyText ((mapKeys m).map fun k => (k, (mapGet m k).getD [])) (legacyDump p m) := by
  refine ⟨(mapKeys m).map fun k => ['-', '-'] ++ k ++ [' '] ++ quoteList p ((mapGet m k).getD []), ?_, ?_⟩
  · rw [List.forall₂_map_left_iff, List.forall₂_map_right_iff]
    exact List.forall₂_same.mpr fun k _ => quoteList_line hp k _
  · rw [legacyDump, List.flatMap_map]

/-- the entries in ascending order of the keys -/
theorem entries_eq {m es : Subs} (hm : IsMap m) (h : es.Perm m) (hs : (es.map Prod.fst).Pairwise (· < ·)) :
    ((mapKeys m).map fun k => (k, (mapGet m k).getD [])) = es := by
  have hk : mapKeys m = es.map Prod.fst := by
    apply ascending_ext (mapKeys_lt hm) hs
    intro s
    rw [mem_mapKeys]
    exact (h.map Prod.fst).mem_iff.symm
  rw [hk, List.map_map]
  conv_rhs => rw [← List.map_id es]
  apply List.map_congr_left
  intro e he
  have := mapGet_of_mem hm (h.mem_iff.mp he : (e.1, e.2) ∈ m)
  simp [this]

end Gosstrak
