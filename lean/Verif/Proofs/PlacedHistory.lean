import Verif.Proofs.Placed

/-! Fresh tries and histories as placed tries. -/
namespace Gosstrak

open PNode

theorem rows_unique : ∀ (t : PNode) (P : Str) (pl : List Nat), Skew t →
    ∀ e ∈ rowsOf P pl t, ∀ e' ∈ rowsOf P pl t, e.1 = e'.1 → e = e'
  | .nil, _, _, _, e, he, _, _ => by simp [rowsOf] at he
  | .node u f one zero, P, pl, ⟨_, _, hw1, hw0, hh1, hh0⟩, e, he, e', he' => by
    intro heq
    rw [rowsOf, List.mem_cons, List.mem_append] at he he'
    rcases he with rfl | he | he <;> rcases he' with rfl | he' | he'
    · rfl
    · exact absurd (rows_child hh1 he') (heq ▸ own_not_prefix _ _)
    · exact absurd (rows_child hh0 he') (heq ▸ own_not_prefix _ _)
    · exact absurd (rows_child hh1 he) (heq ▸ own_not_prefix _ _)
    · exact rows_unique one _ _ hw1 e he e' he' heq
    · exact absurd (rows_child hh0 he') (heq ▸ not_prefix_other (by decide) (rows_child hh1 he))
    · exact absurd (rows_child hh0 he) (heq ▸ own_not_prefix _ _)
    · exact absurd (rows_child hh1 he') (heq ▸ not_prefix_other (by decide) (rows_child hh0 he))
    · exact rows_unique zero _ _ hw0 e he e' he' heq

theorem wf_skew : ∀ (t : PNode) (P : Str), WF P t → Skew t
  | .nil, _, _ => trivial
  | .node u f one zero, P, ⟨hb, hf, hw1, hw0, hh1, hh0⟩ => by
    refine ⟨hb, ?_, wf_skew one _ hw1, wf_skew zero _ hw0, hh1, hh0⟩
    have : f.offset = P.length := by rw [hf]; rfl
    rw [this]
    exact hf

theorem wf_rows : ∀ (t : PNode) (P : Str), WF P t → ∀ m l u,
    (m, l, u) ∈ rowsOf P (List.range P.length) t →
      l = List.range m.length ∧ m ∈ paths P t ∧ (u ≠ [] → (m, u) ∈ content P t)
  | .nil, _, _, m, l, u, h => by simp [rowsOf] at h
  | .node v f one zero, P, ⟨hb, hf, hw1, hw0, hh1, hh0⟩, m, l, u, h => by
    have ho : f.offset = P.length := by rw [hf]; rfl
    have hr : List.range P.length ++ List.range' f.offset f.str.length = List.range (P ++ f.str).length := by
      rw [ho, List.length_append, List.range_eq_range', List.range_eq_range']
      have := List.range'_append_1 (s := 0) (m := P.length) (n := f.str.length)
      rw [Nat.zero_add] at this
      exact this
    rw [rowsOf, List.mem_cons, List.mem_append, hr] at h
    rw [paths, content, List.mem_cons, List.mem_append, List.mem_append, List.mem_append]
    rcases h with h | h | h
    · simp only [Prod.mk.injEq] at h
      obtain ⟨rfl, rfl, rfl⟩ := h
      exact ⟨rfl, Or.inl rfl, fun hu => Or.inl (by rw [if_neg hu]; simp)⟩
    · obtain ⟨a, b, c⟩ := wf_rows one _ hw1 m l u h
      exact ⟨a, Or.inr (Or.inl b), fun hu => Or.inr (Or.inl (c hu))⟩
    · obtain ⟨a, b, c⟩ := wf_rows zero _ hw0 m l u h
      exact ⟨a, Or.inr (Or.inr b), fun hu => Or.inr (Or.inr (c hu))⟩

theorem paths_rows : ∀ (t : PNode) (P : Str) (pl : List Nat) (m : Str), m ∈ paths P t → ∃ l u, (m, l, u) ∈ rowsOf P pl t
  | .nil, _, _, m, h => by simp [paths] at h
  | .node v f one zero, P, pl, m, h => by
    rw [paths, List.mem_cons, List.mem_append] at h
    rcases h with rfl | h | h
    · exact ⟨_, _, by rw [rowsOf]; exact List.mem_cons_self⟩
    · obtain ⟨l, u, hr⟩ := paths_rows one _ (pl ++ List.range' f.offset f.str.length) m h
      exact ⟨l, u, by rw [rowsOf, List.mem_cons, List.mem_append]; exact Or.inr (Or.inl hr)⟩
    · obtain ⟨l, u, hr⟩ := paths_rows zero _ (pl ++ List.range' f.offset f.str.length) m h
      exact ⟨l, u, by rw [rowsOf, List.mem_cons, List.mem_append]; exact Or.inr (Or.inr hr)⟩

theorem content_rows : ∀ (t : PNode) (P : Str) (pl : List Nat) (m u : Str), (m, u) ∈ content P t → ∃ l, (m, l, u) ∈ rowsOf P pl t
  | .nil, _, _, m, u, h => by simp [content] at h
  | .node v f one zero, P, pl, m, u, h => by
    rw [content, List.mem_append, List.mem_append] at h
    rcases h with h | h | h
    · split at h
      · simp at h
      · simp only [List.mem_singleton, Prod.mk.injEq] at h
        obtain ⟨rfl, rfl⟩ := h
        exact ⟨_, by rw [rowsOf]; exact List.mem_cons_self⟩
    · obtain ⟨l, hr⟩ := content_rows one _ (pl ++ List.range' f.offset f.str.length) m u h
      exact ⟨l, by rw [rowsOf, List.mem_cons, List.mem_append]; exact Or.inr (Or.inl hr)⟩
    · obtain ⟨l, hr⟩ := content_rows zero _ (pl ++ List.range' f.offset f.str.length) m u h
      exact ⟨l, by rw [rowsOf, List.mem_cons, List.mem_append]; exact Or.inr (Or.inr hr)⟩

theorem placed_shows {t : PNode} {v : TrieView} (h : Shows t v) (ho : offs t = 0) :
    ShowsPlaced t ⟨v.nodes, fun m => List.range m.length, fun m => (v.stored m).getD []⟩ := by
  obtain ⟨h1, h2, h3, h4⟩ := h
  refine ⟨h1, wf_skew _ _ h2, ho, ?_⟩
  have key : ∀ m l u, (m, l, u) ∈ rowsOf [] [] t →
      m ∈ v.nodes ∧ List.range m.length = l ∧ (v.stored m).getD [] = u := by
    intro m l u h
    obtain ⟨a, b, c⟩ := wf_rows _ [] h2 m l u h
    refine ⟨(h4 m).mp b, a.symm, ?_⟩
    by_cases hu : u = []
    · subst hu
      cases hf : v.stored m with
      | none => rfl
      | some w =>
        have hm := (h3 m w).mpr hf
        obtain ⟨l', hr⟩ := content_rows _ _ [] m w hm
        have := rows_unique _ _ _ (wf_skew _ _ h2) _ h _ hr rfl
        simp only [Prod.mk.injEq] at this
        exact this.2.2.symm
    · rw [(h3 m u).mp (c hu)]
      rfl
  intro m l u
  refine ⟨key m l u, ?_⟩
  rintro ⟨hm, rfl, rfl⟩
  obtain ⟨l, u, hr⟩ := paths_rows _ _ [] m ((h4 m).mpr hm)
  obtain ⟨-, hl, hu⟩ := key m l u hr
  dsimp only
  rw [hl, hu]
  exact hr

theorem placed_fresh (mk : Encoder) (sub : Subs) (hu : UrisNonEmpty sub)
    (hb : ∀ k u, (k, u) ∈ toByteSubscriptions mk sub → IsBitStr k) :
    ShowsPlaced (newPatricia mk sub) (placedFresh mk sub) :=
  placed_shows (shows_fresh mk sub hu hb) (by rw [newPatricia, newPatriciaFrom]; rfl)

theorem placed_ops : ∀ (ops : List KeyOp) {t : PNode} {v : PlacedTrie}, ShowsPlaced t v →
    (∀ op ∈ ops, match op with | .add k _ => IsBitStr k | .delete k => IsBitStr k) →
    ShowsPlaced (ops.foldl PNode.applyKey t) (ops.foldl PlacedTrie.step v)
  | [], _, _, h, _ => h
  | .add k uri :: ops, _, _, h, hi =>
    placed_ops ops (placed_add h k uri (hi (.add k uri) List.mem_cons_self)) fun op ho => hi op (List.mem_cons_of_mem _ ho)
  | .delete k :: ops, _, _, h, hi =>
    placed_ops ops (placed_delete h k (hi (.delete k) List.mem_cons_self)) fun op ho => hi op (List.mem_cons_of_mem _ ho)

theorem placed_history (mk : Encoder) (sub : Subs) (ops : List SubsOp) (hu : UrisNonEmpty sub)
    (hb : ∀ k u, (k, u) ∈ toByteSubscriptions mk sub → IsBitStr k)
    (hops : ∀ s, .add s ∈ ops ∨ .delete s ∈ ops → ∀ k ∈ mapKeys (toByteSubscriptions mk s), IsBitStr k) :
    ShowsPlaced (ops.foldl (PNode.applyOp mk) (newPatricia mk sub)) (placedAfter mk sub ops) := by
  rw [applyOps_keys]
  apply placed_ops _ (placed_fresh mk sub hu hb)
  intro op ho
  obtain ⟨o, ho1, ho2⟩ := List.mem_flatMap.mp ho
  cases o with
  | add s =>
    obtain ⟨k, hk, rfl⟩ := List.mem_map.mp ho2
    exact hops s (Or.inl ho1) k hk
  | delete s =>
    obtain ⟨k, hk, rfl⟩ := List.mem_map.mp ho2
    exact hops s (Or.inr ho1) k hk

theorem step_inside (v : PlacedTrie) (k uri q : Str) (hin : InsideEdge v.nodes k) (hq : firstAbove v.nodes k = q) :
    v.step (.add k uri) =
      ⟨v.nodes.map fun m => if q <+: m then k ++ m.drop q.length else m,
       fun m => if k <+: m then (v.place (q ++ m.drop k.length)).take k.length ++
          (v.place (q ++ m.drop k.length)).drop q.length else v.place m,
       fun m => if m = k then [] else if k <+: m then v.stored (q ++ m.drop k.length) else v.stored m⟩ := by
  unfold PlacedTrie.step
  dsimp only
  rw [if_neg hin.1, if_pos hin.2, hq]

theorem step_known (v : PlacedTrie) (k uri : Str) (hk : k ∈ v.nodes) :
    v.step (.add k uri) = ⟨v.nodes, v.place, fun m => if m = k then uri else v.stored m⟩ := by
  unfold PlacedTrie.step
  dsimp only
  rw [if_pos hk]

theorem search_uris : ∀ (t : PNode) (P : Str) (pl : List Nat) (id : List Byte) (uris : List Str), t.search id = some uris →
    ∀ u ∈ uris, ∃ m l, (m, l, u) ∈ rowsOf P pl t ∧ u ≠ []
  | .nil, _, _, id, uris, h, u, hu => by simp [PNode.search] at h
  | .node w f one zero, P, pl, id, uris, h, u, hu => by
    unfold PNode.search at h
    cases hm : f.matchID id with
    | none => simp [hm] at h
    | some b =>
      cases b with
      | false => simp [hm] at h; subst h; simp at hu
      | true =>
        simp only [hm] at h
        have hown : u ∈ (if w.length ≠ 0 then [w] else []) → ∃ m l, (m, l, u) ∈ rowsOf P pl (.node w f one zero) ∧ u ≠ [] := by
          intro hx
          split at hx
          · rename_i hw
            simp only [List.mem_singleton] at hx
            subst hx
            exact ⟨_, _, by rw [rowsOf]; exact List.mem_cons_self, by rintro rfl; simp at hw⟩
          · simp at hx
        have hone : ∀ us, one.search id = some us → u ∈ us → ∃ m l, (m, l, u) ∈ rowsOf P pl (.node w f one zero) ∧ u ≠ [] := by
          intro us hs hx
          obtain ⟨m, l, h1, h2⟩ := search_uris one (P ++ f.str) (pl ++ List.range' f.offset f.str.length) id us hs u hx
          exact ⟨m, l, by rw [rowsOf, List.mem_cons, List.mem_append]; exact Or.inr (Or.inl h1), h2⟩
        have hzero : ∀ us, zero.search id = some us → u ∈ us → ∃ m l, (m, l, u) ∈ rowsOf P pl (.node w f one zero) ∧ u ≠ [] := by
          intro us hs hx
          obtain ⟨m, l, h1, h2⟩ := search_uris zero (P ++ f.str) (pl ++ List.range' f.offset f.str.length) id us hs u hx
          exact ⟨m, l, by rw [rowsOf, List.mem_cons, List.mem_append]; exact Or.inr (Or.inr h1), h2⟩
        cases hn : getNextBit id (f.offset + f.size) with
        | none => simp [hn] at h
        | some nb =>
          simp only [hn] at h
          by_cases h1 : nb = '1' ∧ one ≠ .nil
          · rw [if_pos h1] at h
            cases hs : one.search id with
            | none => simp [hs] at h
            | some us =>
              simp [hs] at h
              subst h
              rcases List.mem_append.mp hu with hx | hx
              · exact hown (by simpa using hx)
              · exact hone us hs hx
          · rw [if_neg h1] at h
            by_cases h0 : nb = '0' ∧ zero ≠ .nil
            · rw [if_pos h0] at h
              cases hs : zero.search id with
              | none => simp [hs] at h
              | some us =>
                simp [hs] at h
                subst h
                rcases List.mem_append.mp hu with hx | hx
                · exact hown (by simpa using hx)
                · exact hzero us hs hx
            · rw [if_neg h0] at h
              simp at h
              subst h
              exact hown (by simpa using hu)
termination_by t => t

/-- only known URIs are stored -/
theorem placed_stored (ops : List KeyOp) (U : Str → Prop) (h0 : U []) :
    ∀ v : PlacedTrie, (∀ m, U (v.stored m)) → (∀ k u, .add k u ∈ ops → U u) →
      ∀ m, U ((ops.foldl PlacedTrie.step v).stored m) := by
  induction ops with
  | nil => intro v h _; exact h
  | cons op ops ih =>
    intro v h ha
    apply ih _ _ fun k u hk => ha k u (List.mem_cons_of_mem _ hk)
    intro m
    cases op with
    | add k u =>
      have hu := ha k u List.mem_cons_self
      unfold PlacedTrie.step
      dsimp only
      repeat' split
      all_goals dsimp only
      all_goals repeat' split
      all_goals first | exact hu | exact h0 | exact h _
    | delete k =>
      unfold PlacedTrie.step
      dsimp only
      repeat' split
      all_goals try dsimp only
      all_goals repeat' split
      all_goals first | exact h0 | exact h _

theorem pairwise_prefix_unique : ∀ (a b : FlatSubs), (a.map Prod.fst).Pairwise (fun a b => a <+: b ∧ a ≠ b) →
    (b.map Prod.fst).Pairwise (fun a b => a <+: b ∧ a ≠ b) → (∀ e, e ∈ a ↔ e ∈ b) → a = b
  | [], [], _, _, _ => rfl
  | [], y :: b, _, _, h => absurd ((h y).mpr List.mem_cons_self) (by simp)
  | x :: a, [], _, _, h => absurd ((h x).mp List.mem_cons_self) (by simp)
  | x :: a, y :: b, ha, hb, h => by
    rw [List.map_cons, List.pairwise_cons] at ha hb
    have hxy : x = y := by
      rcases List.mem_cons.mp ((h x).mp List.mem_cons_self) with h1 | h1
      · exact h1
      · rcases List.mem_cons.mp ((h y).mpr List.mem_cons_self) with h2 | h2
        · exact h2.symm
        · have e1 := ha.1 _ (List.mem_map_of_mem h2)
          have e2 := hb.1 _ (List.mem_map_of_mem h1)
          exact absurd (prefix_antisymm e1.1 e2.1) e1.2
    subst hxy
    congr 1
    apply pairwise_prefix_unique a b ha.2 hb.2
    intro e
    constructor
    · intro he
      rcases List.mem_cons.mp ((h e).mp (List.mem_cons_of_mem _ he)) with h1 | h1
      · subst h1; exact absurd rfl (ha.1 _ (List.mem_map_of_mem he)).2
      · exact h1
    · intro he
      rcases List.mem_cons.mp ((h e).mpr (List.mem_cons_of_mem _ he)) with h1 | h1
      · subst h1; exact absurd rfl (hb.1 _ (List.mem_map_of_mem he)).2
      · exact h1

theorem placed_reports_unique {v : PlacedTrie} {id : List Byte} {a b : List Str} (ha : v.Reports id a) (hb : v.Reports id b) :
    a = b := by
  obtain ⟨x, x1, x2, rfl⟩ := ha
  obtain ⟨y, y1, y2, rfl⟩ := hb
  rw [pairwise_prefix_unique x y x1 y1 fun e => by rw [x2 e.1 e.2, y2 e.1 e.2]]

end Gosstrak
