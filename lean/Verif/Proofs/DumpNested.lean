import Verif.Proofs.DumpReach

/-! The text form of nested subscriptions. -/
namespace Gosstrak

/-- no character of the line can be mistaken for a separator -/
def NestedLine.Clean (l : NestedLine) : Prop := IsBitStr l.str ∧ '\n' ∉ l.uri

theorem nested_says_unique {l l' : NestedLine} {s : Str} (hl : l.Clean) (hl' : l'.Clean) (h : l.Says s) (h' : l'.Says s) : l = l' := by
  obtain ⟨so, n1, e⟩ := h
  obtain ⟨so', n1', e'⟩ := h'
  rw [e] at e'
  have e1 : ∀ (d : Nat) (str so uri : Str), List.replicate d ' ' ++ "--".toList ++ str ++ " ".toList ++ so ++ " ".toList ++ uri =
      List.replicate d ' ' ++ '-' :: ('-' :: (str ++ ' ' :: (so ++ ' ' :: uri))) := by
    intro d str so uri
    simp
  rw [e1, e1] at e'
  have nd : ∀ d : Nat, '-' ∉ List.replicate d ' ' := by
    intro d hx
    exact absurd (List.eq_of_mem_replicate hx) (by decide)
  obtain ⟨p1, q1⟩ := split_at (nd _) (nd _) e'
  simp only [List.cons.injEq, true_and] at q1
  obtain ⟨p2, q2⟩ := split_at (bitStr_not_mem hl.1 (by decide) (by decide)) (bitStr_not_mem hl'.1 (by decide) (by decide)) q1
  obtain ⟨p3, q3⟩ := split_at (digits_not_mem n1.1 (by decide)) (digits_not_mem n1'.1 (by decide)) q2
  subst p3
  have hd : l.depth = l'.depth := by simpa using congrArg List.length p1
  have ho := numeral_val_unique n1 n1'
  cases l; cases l'
  simp_all

theorem nested_no_newline {l : NestedLine} {s : Str} (hl : l.Clean) (h : l.Says s) : '\n' ∉ s := by
  obtain ⟨so, n1, rfl⟩ := h
  have a2 := bitStr_not_mem hl.1 (c := '\n') (by decide) (by decide)
  have a3 := digits_not_mem n1.1 (c := '\n') (by decide)
  simp [a2, a3, hl.2]

theorem nestedText_unique : ∀ {ls ls' : List NestedLine} {text : Str}, (∀ l ∈ ls, l.Clean) →
    (∀ l ∈ ls', l.Clean) → NestedText ls text → NestedText ls' text → ls = ls'
  | [], [], _, _, _, _, _ => rfl
  | [], l' :: ls', text, _, _, ⟨ss, h1, e1⟩, ⟨ss', h2, e2⟩ => by
    cases h1
    cases h2
    rw [e1] at e2
    simp at e2
  | l :: ls, [], text, _, _, ⟨ss, h1, e1⟩, ⟨ss', h2, e2⟩ => by
    cases h1
    cases h2
    rw [e2] at e1
    simp at e1
  | l :: ls, l' :: ls', text, c1, c2, ⟨ss, h1, e1⟩, ⟨ss', h2, e2⟩ => by
    cases h1 with
    | cons a1 a2 =>
      rename_i s ss
      cases h2 with
      | cons b1 b2 =>
        rename_i s' ss'
        rw [e1] at e2
        simp only [List.flatMap_cons, List.append_assoc, List.singleton_append] at e2
        obtain ⟨rfl, e3⟩ := split_at (nested_no_newline (c1 l (by simp)) a1) (nested_no_newline (c2 l' (by simp)) b1) e2
        rw [nested_says_unique (c1 l (by simp)) (c2 l' (by simp)) a1 b1,
          nestedText_unique (fun x hx => c1 x (by simp [hx])) (fun x hx => c2 x (by simp [hx])) ⟨ss, a2, rfl⟩ ⟨ss', b2, e3⟩]

theorem nestedText_append {ls ls' : List NestedLine} {t t' : Str} (h : NestedText ls t)
    (h' : NestedText ls' t') : NestedText (ls ++ ls') (t ++ t') := by
  obtain ⟨ss, h1, rfl⟩ := h
  obtain ⟨ss', h2, rfl⟩ := h'
  exact ⟨ss ++ ss', List.rel_append h1 h2, by simp⟩

theorem nestedText_nil : NestedText [] [] := ⟨[], .nil, rfl⟩

theorem nestedText_one {l : NestedLine} {s : Str} (h : l.Says s) : NestedText [l] (s ++ ['\n']) := ⟨[s], .cons h .nil, by simp⟩

theorem depth_mem : ∀ {b : BSub} {e : Str × PSub}, e ∈ b → BSub.depth e.2.subset < BSub.depth b
  | a :: b, e, h => by
    rw [BSub.depth]
    rcases List.mem_cons.mp h with rfl | h
    · obtain ⟨k, ⟨o, u, s⟩⟩ := e
      simp only [entryDepth, PSub.depth, PSub.subset]
      omega
    · have := depth_mem h
      omega

theorem linked_parts {b : BSub} (h : Linked b) : IsMap b ∧ ∀ k o u s, (k, PSub.mk o u s) ∈ b → Linked s := by
  cases h with
  | mk h1 h2 h3 h4 => exact ⟨h1, h4⟩

theorem nodup_of_map {α β : Type} (g : α → β) {l : List α} (h : (l.map g).Nodup) : l.Nodup := by
  unfold List.Nodup at h ⊢
  rw [List.pairwise_map] at h
  exact h.imp fun h e => h (by rw [e])

/-- the entries of a map in the order of the keys -/
theorem sorted_entries {α : Type} (b : List (Str × α)) (hm : IsMap b) : ∃ es : List (Str × α), es.Perm b ∧ es.map Prod.fst = mapKeys b := by
  have hb : b.Nodup := nodup_of_map Prod.fst hm
  let es := (mapKeys b).filterMap fun k => (mapGet b k).map fun v => (k, v)
  have hes : es.map Prod.fst = mapKeys b := by
    have : ∀ ks : List Str, (∀ k ∈ ks, k ∈ mapKeys b) → (ks.filterMap fun k => (mapGet b k).map fun v => (k, v)).map Prod.fst = ks := by
      intro ks
      induction ks with
      | nil => intro _; rfl
      | cons k ks ih =>
        intro h
        obtain ⟨e, he, hk⟩ := List.mem_map.mp ((mem_mapKeys _ _).mp (h k (by simp)))
        have : mapGet b k = some e.2 := by rw [← hk]; exact (mapGet_iff hm e.1 e.2).mpr he
        simp only [List.filterMap_cons, this, Option.map_some, List.map_cons, List.cons.injEq, true_and]
        exact ih fun k hk => h k (by simp [hk])
    exact this _ fun _ h => h
  refine ⟨es, ?_, hes⟩
  rw [List.perm_ext_iff_of_nodup _ hb]
  · rintro ⟨k, v⟩
    simp only [es, List.mem_filterMap, Option.map_eq_some_iff, Prod.mk.injEq]
    constructor
    · rintro ⟨k', hk, v', hv, rfl, rfl⟩
      exact (mapGet_iff hm _ _).mp hv
    · intro h
      exact ⟨k, (mem_mapKeys _ _).mpr (List.mem_map.mpr ⟨_, h, rfl⟩), v, (mapGet_iff hm _ _).mpr h, rfl, rfl⟩
  · apply nodup_of_map Prod.fst
    rw [hes]
    refine (mapKeys_lt hm).imp ?_
    rintro a b h rfl
    exact List.lt_irrefl _ h

theorem nested_text : ∀ (fuel : Nat) (b : BSub) (d : Nat), Linked b → BSub.depth b ≤ fuel →
    ∃ ls, NestedLines d b ls ∧ NestedText ls (BSub.print fuel b d)
  | 0, b, d, hl, hf => by
    cases b with
    | nil => exact ⟨[], .mk (es := []) (List.Perm.refl _) (by simp) .nil, nestedText_nil⟩
    | cons e b => rw [BSub.depth] at hf; omega
  | fuel + 1, b, d, hl, hf => by
    obtain ⟨hm, hsub⟩ := linked_parts hl
    obtain ⟨es, hperm, hkeys⟩ := sorted_entries b hm
    have key : ∀ es : List (Str × PSub), (∀ e ∈ es, e ∈ b) → ∃ ls, EntryLines d es ls ∧ NestedText ls
        ((es.map Prod.fst).flatMap fun fs =>
          match mapGet b fs with
          | none => []
          | some p =>
            List.replicate d ' ' ++ ['-', '-'] ++ fs ++ [' '] ++ decStr p.offset ++ [' '] ++ p.uri ++ ['\n'] ++
              (if p.subset.length ≠ 0 then BSub.print fuel p.subset (d + 2) else [])) := by
      intro es
      induction es with
      | nil => intro _; exact ⟨[], .nil, nestedText_nil⟩
      | cons e es ih =>
        intro h
        obtain ⟨ls', i1, i2⟩ := ih fun e he => h e (by simp [he])
        have he := h e (by simp)
        have hdep := depth_mem he
        obtain ⟨k, ⟨o, u, s⟩⟩ := e
        simp only [PSub.subset] at hdep
        have hget := (mapGet_iff hm _ _).mpr he
        obtain ⟨ls, j1, j2⟩ := nested_text fuel s (d + 2) (hsub k o u s he) (by omega)
        refine ⟨_, .cons j1 i1, ?_⟩
        have h1 : NestedLine.Says ⟨d, k, o, u⟩ (List.replicate d ' ' ++ ['-', '-'] ++ k ++ [' '] ++ decStr o ++ [' '] ++ u) :=
          ⟨decStr o, decStr_numeral _, by simp⟩
        have h2 : NestedText ls (if s.length ≠ 0 then BSub.print fuel s (d + 2) else []) := by
          split
          · exact j2
          · rename_i hs
            have : s = [] := by simpa using hs
            subst this
            have : BSub.print fuel [] (d + 2) = [] := by cases fuel <;> rfl
            rw [this] at j2
            exact j2
        have := nestedText_append (nestedText_append (nestedText_one h1) h2) i2
        simpa [hget, PSub.offset, PSub.uri, PSub.subset] using this
    obtain ⟨ls, k1, k2⟩ := key es fun e he => hperm.mem_iff.mp he
    refine ⟨ls, .mk hperm (by rw [hkeys]; exact mapKeys_lt hm) k1, ?_⟩
    rw [hkeys] at k2
    exact k2

/-- the lines end here for entries at depth `d` -/
def NestedEnds (d : Nat) (r : List NestedLine) : Prop := ∀ l, r.head? = some l → l.depth < d

theorem full_perm {b b' : BSub} (h : b.Perm b') {q u : Str} : Full b q u → Full b' q u := by
  intro hf
  cases hf with
  | here hm => exact .here (h.mem_iff.mp hm)
  | under hm hq => exact .under (h.mem_iff.mp hm) hq

theorem full_cons {k u : Str} {o : Nat} {s es : BSub} {q v : Str} :
    Full ((k, PSub.mk o u s) :: es) q v ↔ (q = k ∧ v = u) ∨ (∃ q', q = k ++ q' ∧ Full s q' v) ∨ Full es q v := by
  constructor
  · intro h
    cases h with
    | here hm =>
      rcases List.mem_cons.mp hm with e | hm
      · cases e; exact Or.inl ⟨rfl, rfl⟩
      · exact Or.inr (Or.inr (.here hm))
    | under hm hq =>
      rcases List.mem_cons.mp hm with e | hm
      · cases e; exact Or.inr (Or.inl ⟨_, rfl, hq⟩)
      · exact Or.inr (Or.inr (.under hm hq))
  · rintro (⟨rfl, rfl⟩ | ⟨q', rfl, h⟩ | h)
    · exact .here List.mem_cons_self
    · exact .under List.mem_cons_self h
    · cases h with
      | here hm => exact .here (List.mem_cons_of_mem _ hm)
      | under hm hq => exact .under (List.mem_cons_of_mem _ hm) hq

theorem entry_head {d : Nat} {es : List (Str × PSub)} {ls : List NestedLine} (h : EntryLines d es ls) :
    es = [] ∧ ls = [] ∨ ∃ l r, ls = l :: r ∧ l.depth = d := by
  cases h with
  | nil => exact Or.inl ⟨rfl, rfl⟩
  | cons _ _ => exact Or.inr ⟨_, _, rfl, rfl⟩

theorem entry_inj {d : Nat} {es es' : List (Str × PSub)} {ls ls' r r' : List NestedLine} (h : EntryLines d es ls)
    (h' : EntryLines d es' ls') (hr : NestedEnds d r) (hr' : NestedEnds d r') (e : ls ++ r = ls' ++ r') :
    (∀ q u, Full es q u ↔ Full es' q u) ∧ r = r' := by
  induction hn : ls.length using Nat.strongRecOn generalizing d es es' ls ls' r r' with
  | ind n ih =>
  subst hn
  cases h with
  | nil =>
    rcases entry_head h' with ⟨rfl, rfl⟩ | ⟨l, q, rfl, hd⟩
    · exact ⟨fun _ _ => Iff.rfl, by simpa using e⟩
    · simp only [List.nil_append, List.cons_append] at e
      have := hr l (by rw [e]; rfl)
      omega
  | cons h1 h2 =>
    rename_i k o u s es ls1 ls2
    cases h' with
    | nil =>
      simp only [List.nil_append, List.cons_append] at e
      have := hr' ⟨d, k, o, u⟩ (by rw [← e]; rfl)
      simp at this
    | cons g1 g2 =>
      rename_i k' o' u' s' es' ls1' ls2'
      simp only [List.cons_append, List.cons.injEq, NestedLine.mk.injEq, true_and, List.append_assoc] at e
      obtain ⟨⟨rfl, rfl, rfl⟩, e⟩ := e
      have ends : ∀ {es : List (Str × PSub)} {ls r : List NestedLine}, EntryLines d es ls → NestedEnds d r → NestedEnds (d + 2) (ls ++ r) := by
        intro es ls r h hr l hl
        rcases entry_head h with ⟨rfl, rfl⟩ | ⟨l', q, rfl, hd⟩
        · have := hr l (by simpa using hl)
          omega
        · simp only [List.cons_append, List.head?_cons, Option.some.injEq] at hl
          subst hl; omega
      cases h1 with
      | mk a1 _ a3 =>
        cases g1 with
        | mk b1 _ b3 =>
          obtain ⟨i1, i2⟩ := ih ls1.length (by simp only [List.length_cons, List.length_append]; omega) a3 b3 (ends h2 hr)
            (ends g2 hr') e rfl
          obtain ⟨j1, j2⟩ := ih ls2.length (by simp only [List.length_cons, List.length_append]; omega) h2 g2 hr hr' i2 rfl
          have i3 : ∀ q u, Full s q u ↔ Full s' q u := fun q u =>
            ⟨fun h => full_perm b1 ((i1 q u).mp (full_perm a1.symm h)),
              fun h => full_perm a1 ((i1 q u).mpr (full_perm b1.symm h))⟩
          refine ⟨fun q u => ?_, j2⟩
          rw [full_cons, full_cons]
          simp only [i3, j1]

theorem nested_inj {b b' : BSub} {ls : List NestedLine} (h : NestedLines 0 b ls) (h' : NestedLines 0 b' ls) :
    ∀ q u, Full b q u ↔ Full b' q u := by
  cases h with
  | mk h1 _ h3 =>
    cases h' with
    | mk g1 _ g3 =>
      obtain ⟨i1, -⟩ := entry_inj (r := []) (r' := []) h3 g3 (by simp [NestedEnds]) (by simp [NestedEnds]) rfl
      exact fun q u => ⟨fun h => full_perm g1 ((i1 q u).mp (full_perm h1.symm h)),
        fun h => full_perm h1 ((i1 q u).mpr (full_perm g1.symm h))⟩

theorem entry_clean {d : Nat} {es : List (Str × PSub)} {ls : List NestedLine} (h : EntryLines d es ls)
    (hb : ∀ q u, Full es q u → IsBitStr q ∧ '\n' ∉ u) : ∀ l ∈ ls, l.Clean := by
  induction hn : ls.length using Nat.strongRecOn generalizing d es ls with
  | ind n ih =>
  subst hn
  cases h with
  | nil => simp
  | cons h1 h2 =>
    rename_i k o u s es ls1 ls2
    intro l hl
    simp only [List.mem_cons, List.mem_append] at hl
    rcases hl with rfl | hl | hl
    · exact hb k u (full_cons.mpr (Or.inl ⟨rfl, rfl⟩))
    · cases h1 with
      | mk a1 _ a3 =>
        refine ih ls1.length (by simp only [List.length_cons, List.length_append]; omega) a3 (fun q v hq => ?_) rfl l hl
        obtain ⟨a, b⟩ := hb (k ++ q) v (full_cons.mpr (Or.inr (Or.inl ⟨q, rfl, full_perm a1 hq⟩)))
        exact ⟨fun c hc => a c (by simp [hc]), b⟩
    · exact ih ls2.length (by simp only [List.length_cons, List.length_append]; omega) h2
        (fun q v hq => hb q v (full_cons.mpr (Or.inr (Or.inr hq)))) rfl l hl

theorem nested_clean {b : BSub} {ls : List NestedLine} (h : NestedLines 0 b ls)
    (hb : ∀ q u, Full b q u → IsBitStr q ∧ '\n' ∉ u) : ∀ l ∈ ls, l.Clean := by
  cases h with
  | mk h1 _ h3 => exact entry_clean h3 fun q u h => hb q u (full_perm h1 h)

end Gosstrak
