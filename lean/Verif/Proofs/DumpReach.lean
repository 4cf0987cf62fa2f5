import Verif.Proofs.Dump
import Verif.Proofs.SplayUpdate
import Verif.Proofs.PatriciaUpdate

/-! Engines reached by calls can be read back from their text. -/
namespace Gosstrak

/-- the nodes of a tree can be printed -/
def SNode.AllPrintable (t : SNode) : Prop := ∀ n ∈ t.nodes, Printable n

theorem printable_new {s u : Str} {o : Nat} (hs : IsBitStr s) (hu : '\n' ∉ u) : Printable (u, some (newFilter s o)) :=
  ⟨hu, _, rfl, hs, rfl⟩

theorem isBitStr_drop {s : Str} (h : IsBitStr s) (n : Nat) : IsBitStr (s.drop n) := fun c hc => h c (List.mem_of_mem_drop hc)

theorem isBitStr_nil : IsBitStr [] := fun c hc => by simp at hc

theorem allPrintable_node {u : Str} {f : Option FilterObject} {m mm : SNode} :
    (SNode.node u f m mm).AllPrintable ↔ Printable (u, f) ∧ m.AllPrintable ∧ mm.AllPrintable := by
  constructor
  · intro h
    exact ⟨h _ (by simp [SNode.nodes]), fun n hn => h n (by simp [SNode.nodes, hn]), fun n hn => h n (by simp [SNode.nodes, hn])⟩
  · rintro ⟨h1, h2, h3⟩ n hn
    simp only [SNode.nodes, List.mem_cons, List.mem_append] at hn
    rcases hn with rfl | hn | hn
    · exact h1
    · exact h2 n hn
    · exact h3 n hn

theorem allPrintable_nil : SNode.nil.AllPrintable := fun n hn => by simp [SNode.nodes] at hn

theorem printable_uri {u u' : Str} {f : Option FilterObject} (h : Printable (u, f)) (hu : '\n' ∉ u') : Printable (u', f) :=
  ⟨hu, h.2⟩

theorem printable_add : ∀ (t : SNode) (fs uri : Str) (t' : SNode), IsBitStr fs → '\n' ∉ uri → t.add fs uri = some t' →
    t.AllPrintable → t'.AllPrintable ∧ t' ≠ .nil
  | .nil, _, _, _, _, _, h, _ => by simp [SNode.add] at h
  | .node _ none _ _, _, _, _, _, _, h, _ => by simp [SNode.add] at h
  | .node u (some f) m mm, fs, uri, t', hb, hu, h, hp => by
    obtain ⟨p1, p2, p3⟩ := allPrintable_node.mp hp
    rw [SNode.add] at h
    split at h
    · split at h
      · cases h
        refine ⟨allPrintable_node.mpr ⟨?_, p2, p3⟩, by simp⟩
        split
        · exact printable_uri p1 hu
        · exact p1
      · split at h
        · cases h
          exact ⟨allPrintable_node.mpr ⟨p1, allPrintable_node.mpr ⟨printable_new (isBitStr_drop hb _) hu, allPrintable_nil,
            allPrintable_nil⟩, p3⟩, by simp⟩
        · obtain ⟨m', h1, rfl⟩ := Option.map_eq_some_iff.mp h
          exact ⟨allPrintable_node.mpr ⟨p1, (printable_add m _ _ m' (isBitStr_drop hb _) hu h1 p2).1, p3⟩, by simp⟩
    · split at h
      · cases h
        exact ⟨allPrintable_node.mpr ⟨p1, p2, allPrintable_node.mpr ⟨printable_new hb hu, allPrintable_nil, allPrintable_nil⟩⟩, by simp⟩
      · obtain ⟨m', h1, rfl⟩ := Option.map_eq_some_iff.mp h
        exact ⟨allPrintable_node.mpr ⟨p1, p2, (printable_add mm _ _ m' hb hu h1 p3).1⟩, by simp⟩

theorem printable_delete : ∀ (t : SNode) (fs : Str) (t' : SNode), IsBitStr fs → t.delete fs = some t' → t.AllPrintable →
    t'.AllPrintable ∧ t' ≠ .nil
  | .nil, _, _, _, h, _ => by simp [SNode.delete] at h
  | .node _ none _ _, _, _, _, h, _ => by simp [SNode.delete] at h
  | .node u (some f) m mm, fs, t', hb, h, hp => by
    obtain ⟨p1, p2, p3⟩ := allPrintable_node.mp hp
    rw [SNode.delete.eq_def] at h
    dsimp only at h
    split at h
    · split at h
      · split at h
        · cases h; exact ⟨hp, by simp⟩
        · rename_i u1 f1 m1 mm1 _
          obtain ⟨q1, q2, q3⟩ := allPrintable_node.mp p2
          split at h
          · cases h
            exact ⟨allPrintable_node.mpr ⟨printable_uri p1 (by simp), p2, p3⟩, by simp⟩
          · obtain ⟨g, rfl, rfl⟩ := Option.map_eq_some_iff.mp h
            obtain ⟨q4, g', hg, q5, -⟩ := q1
            cases hg
            refine ⟨allPrintable_node.mpr ⟨printable_new ?_ q4, q2, p3⟩, by simp⟩
            intro c hc
            rcases List.mem_append.mp hc with hc | hc
            · exact hb c hc
            · exact q5 c hc
        · cases h
          exact ⟨p3, by simp⟩
      · split at h
        · cases h; exact ⟨hp, by simp⟩
        · split at h
          · cases h
          · cases h
            exact ⟨allPrintable_node.mpr ⟨p1, allPrintable_nil, p3⟩, by simp⟩
          · obtain ⟨m', h1, rfl⟩ := Option.map_eq_some_iff.mp h
            exact ⟨allPrintable_node.mpr ⟨p1, (printable_delete m _ m' (isBitStr_drop hb _) h1 p2).1, p3⟩, by simp⟩
    · split at h
      · cases h; exact ⟨hp, by simp⟩
      · split at h
        · cases h
        · cases h
          exact ⟨allPrintable_node.mpr ⟨p1, p2, allPrintable_nil⟩, by simp⟩
        · obtain ⟨m', h1, rfl⟩ := Option.map_eq_some_iff.mp h
          exact ⟨allPrintable_node.mpr ⟨p1, p2, (printable_delete mm _ m' hb h1 p3).1⟩, by simp⟩

theorem foldlM_keeps {α κ : Type} (step : α → κ → Option α) (Q : α → Prop) : ∀ (ks : List κ) (a b : α),
    (∀ k ∈ ks, ∀ x y, step x k = some y → Q x → Q y) → ks.foldlM step a = some b → Q a → Q b
  | [], a, b, _, h, q => by
    simp only [List.foldlM_nil] at h
    cases h; exact q
  | k :: ks, a, b, hs, h, q => by
    rw [List.foldlM_cons] at h
    obtain ⟨c, h1, h2⟩ := Option.bind_eq_some_iff.mp h
    exact foldlM_keeps step Q ks c b (fun k hk => hs k (by simp [hk])) h2 (hs k (by simp) a c h1 q)

theorem safe_key {mk : Encoder} {sub : Subs} (h : TextSafe mk sub) {k : Str} (hk : k ∈ mapKeys (toByteSubscriptions mk sub)) :
    IsBitStr k ∧ '\n' ∉ (mapGet (toByteSubscriptions mk sub) k).getD [] := by
  have hm := isMap_toByteSubscriptions mk sub
  obtain ⟨e, he, rfl⟩ := List.mem_map.mp ((mem_mapKeys _ _).mp hk)
  have := (mapGet_iff hm e.1 e.2).mpr he
  rw [this]
  exact h e.1 e.2 he

theorem printable_call {mk : Encoder} {t t' : SNode} {c : SplayCall} (hc : c.TextSafe mk) (h : t.applyCall mk c = some t')
    (hp : t.AllPrintable ∧ t ≠ .nil) : t'.AllPrintable ∧ t' ≠ .nil := by
  cases c with
  | add s =>
    exact foldlM_keeps _ (fun t => t.AllPrintable ∧ t ≠ .nil) _ _ _ (fun k hk x y hxy hx =>
      printable_add x k _ y (safe_key hc hk).1 (safe_key hc hk).2 hxy hx.1) h hp
  | delete s =>
    exact foldlM_keeps _ (fun t => t.AllPrintable ∧ t ≠ .nil) _ _ _ (fun k hk x y hxy hx =>
      printable_delete x k y (safe_key hc hk).1 hxy hx.1) h hp
  | search id =>
    obtain ⟨⟨ms, t''⟩, h1, rfl⟩ := Option.map_eq_some_iff.mp h
    have := search_nodes h1
    refine ⟨fun n hn => hp.1 n (this.mem_iff.mp hn), ?_⟩
    rintro rfl
    cases t with
    | nil => exact hp.2 rfl
    | node u f m mm =>
      have h2 : (u, f) ∈ SNode.nil.nodes := this.mem_iff.mpr (by simp [SNode.nodes])
      simp [SNode.nodes] at h2

theorem wf_printable : ∀ (t : SNode) (P : Str), SNode.WF P t → (∀ e ∈ SNode.content P t, '\n' ∉ e.2) → t.AllPrintable
  | .nil, _, _, _ => allPrintable_nil
  | .node _ none _ _, _, h, _ => by simp [SNode.WF] at h
  | .node u (some f) m mm, P, ⟨h1, h2, _, _, h5, h6⟩, hu => by
    refine allPrintable_node.mpr ⟨⟨hu (P ++ f.str, u) (by simp [SNode.content]), f, rfl, h1, ?_⟩,
      wf_printable m _ h5 fun e he => hu e (by simp [SNode.content, he]),
      wf_printable mm _ h6 fun e he => hu e (by simp [SNode.content, he])⟩
    have : f.offset = P.length := by rw [h2]; rfl
    rw [this]; exact h2

theorem printable_fresh (mk : Encoder) (sub : Subs) (hne : toByteSubscriptions mk sub ≠ []) (hs : TextSafe mk sub) :
    ∃ t, newSplay mk sub = some t ∧ t.AllPrintable ∧ t ≠ .nil := by
  obtain ⟨t, h1, h2, h3, h4⟩ := sstores_fresh _ (isMap_toByteSubscriptions mk sub) hne (fun k u h => (hs k u h).1)
  exact ⟨t, h1, wf_printable t [] h3 (fun e he => (hs e.1 e.2 ((h4 _ _).mp he)).2), h2⟩

theorem printable_history {mk : Encoder} {sub : Subs} {calls : List SplayCall} {t0 t : SNode}
    (hne : toByteSubscriptions mk sub ≠ []) (hs : TextSafe mk sub) (hc : ∀ c ∈ calls, c.TextSafe mk)
    (h0 : newSplay mk sub = some t0) (h : calls.foldlM (SNode.applyCall mk) t0 = some t) : t.AllPrintable ∧ t ≠ .nil := by
  obtain ⟨t', h1, h2⟩ := printable_fresh mk sub hne hs
  rw [h0] at h1; cases h1
  exact foldlM_keeps _ (fun t => t.AllPrintable ∧ t ≠ .nil) _ _ _ (fun c hcm x y hxy hx => printable_call (hc c hcm) hxy hx) h h2

/-! ### Patricia tries -/

/-- the nodes of a trie can be printed and told apart -/
def PNode.Readable (t : PNode) : Prop := (∀ n ∈ t.nodes, Printable n) ∧ t.BitBranches

/-- the first character of the root -/
def PNode.Starts (t : PNode) (c : Char) : Prop := ∀ u f o z, t = .node u f o z → f.str.head? = some c

theorem readable_node {u : Str} {f : FilterObject} {one zero : PNode} : (PNode.node u f one zero).Readable ↔
    Printable (u, some f) ∧ one.Readable ∧ zero.Readable ∧ one.Starts '1' ∧ zero.Starts '0' := by
  constructor
  · rintro ⟨h1, h2, h3, h4, h5⟩
    exact ⟨h1 _ (by simp [PNode.nodes]), ⟨fun n hn => h1 n (by simp [PNode.nodes, hn]), h4⟩,
      ⟨fun n hn => h1 n (by simp [PNode.nodes, hn]), h5⟩, h2, h3⟩
  · rintro ⟨h1, h2, h3, h4, h5⟩
    refine ⟨?_, h4, h5, h2.2, h3.2⟩
    intro n hn
    simp only [PNode.nodes, List.mem_cons, List.mem_append] at hn
    rcases hn with rfl | hn | hn
    · exact h1
    · exact h2.1 n hn
    · exact h3.1 n hn

theorem readable_nil : PNode.nil.Readable := ⟨fun n hn => by simp [PNode.nodes] at hn, trivial⟩

theorem starts_nil (c : Char) : PNode.nil.Starts c := fun u f o z h => by simp at h

theorem starts_node {u : Str} {f : FilterObject} {o z : PNode} {c : Char} (h : f.str.head? = some c) :
    (PNode.node u f o z).Starts c := fun u' f' o' z' e => by cases e; exact h

theorem readable_leaf {u : Str} {s : Str} {o : Nat} (hs : IsBitStr s) (hu : '\n' ∉ u) :
    (PNode.node u (newFilter s o) .nil .nil).Readable :=
  readable_node.mpr ⟨printable_new hs hu, readable_nil, readable_nil, starts_nil _, starts_nil _⟩

theorem printable_str {u : Str} {f : FilterObject} (h : Printable (u, some f)) : IsBitStr f.str := by
  obtain ⟨_, g, hg, hb, _⟩ := h
  cases hg; exact hb

theorem printable_size {u : Str} {f : FilterObject} (h : Printable (u, some f)) : f.size = f.str.length := by
  obtain ⟨_, g, hg, _, hn⟩ := h
  cases hg; rw [hn]; rfl

theorem bit_cases {s : Str} (h : IsBitStr s) : s = [] ∨ (∃ r, s = '1' :: r) ∨ ∃ r, s = '0' :: r := by
  cases s with
  | nil => exact Or.inl rfl
  | cons c r =>
    rcases h c (by simp) with rfl | rfl
    · exact Or.inr (Or.inr ⟨r, rfl⟩)
    · exact Or.inr (Or.inl ⟨r, rfl⟩)

theorem add_keeps_first : ∀ (t : PNode) (fs uri : Str) (c : Char), t.Starts c → fs.head? = some c → (t.add fs uri).Starts c
  | .nil, _, _, _, _, _ => starts_nil _
  | .node u f one zero, fs, uri, c, h, hfs => by
    have hf := h u f one zero rfl
    have hl : (lcp [fs, f.str]).head? = some c := by
      cases fs with
      | nil => simp at hfs
      | cons a r =>
        simp only [List.head?_cons, Option.some.injEq] at hfs
        subst hfs
        cases hs : f.str with
        | nil => rw [hs] at hf; simp at hf
        | cons b q =>
          rw [hs] at hf
          simp only [List.head?_cons, Option.some.injEq] at hf
          subst hf
          obtain ⟨l1, l2, l3⟩ := lcp2_spec (b :: r) (b :: q)
          have := l3 [b] (by simp) (by simp)
          obtain ⟨w, hw⟩ := this
          rw [← hw]; rfl
    rw [PNode.add.eq_def]
    dsimp only
    repeat' split
    all_goals first
      | exact starts_node hf
      | exact starts_node hl

/-- where two bit strings part, the second one has the other bit -/
theorem other_bit {s t p : Str} (hs : IsBitStr s) (ht : IsBitStr t) (l1 : p <+: s) (l2 : p <+: t)
    (l3 : ∀ q, q <+: s → q <+: t → q <+: p) (hn : ¬ t <+: s) {c : Char} {r : Str} (hc : s.drop p.length = c :: r) :
    (t.drop p.length).head? = some (if c = '1' then '0' else '1') := by
  obtain ⟨a, rfl⟩ := l1
  obtain ⟨b, rfl⟩ := l2
  simp only [List.drop_left] at hc ⊢
  have hbb : IsBitStr b := fun x hx => ht x (by simp [hx])
  have hab : IsBitStr a := fun x hx => hs x (by simp [hx])
  have hcne : ∀ r', b ≠ c :: r' := by
    intro r' hr
    have := l3 (p ++ [c]) ⟨r, by rw [hc]; simp⟩ ⟨r', by rw [hr]; simp⟩
    have := this.length_le
    simp at this
    omega
  rcases bit_cases hbb with e | ⟨q, e⟩ | ⟨q, e⟩
  · exact absurd ⟨a, by rw [e]; simp⟩ hn
  · have hc0 : c = '0' := by
      rcases hab c (by simp [hc]) with h | h
      · exact h
      · subst h; exact absurd e (hcne q)
    subst hc0
    rw [e]; rfl
  · have hc0 : c = '1' := by
      rcases hab c (by simp [hc]) with h | h
      · subst h; exact absurd e (hcne q)
      · exact h
    subst hc0
    rw [e]; rfl

theorem readable_add : ∀ (t : PNode) (fs uri : Str), IsBitStr fs → '\n' ∉ uri → t.Readable → (t.add fs uri).Readable
  | .nil, _, _, _, _, _ => readable_nil
  | .node u f one zero, fs, uri, hb, hu, hp => by
    obtain ⟨p1, p2, p3, p4, p5⟩ := readable_node.mp hp
    have hfb := printable_str p1
    rw [PNode.add.eq_def]
    dsimp only
    split
    · split
      · refine readable_node.mpr ⟨?_, p2, p3, p4, p5⟩
        split
        · exact printable_uri p1 hu
        · exact p1
      · split
        · have hd := isBitStr_drop hb f.size
          rcases bit_cases hd with e | ⟨r, e⟩ | ⟨r, e⟩
          · rw [e]; exact hp
          · rw [e] at hd ⊢
            cases one with
            | nil => exact readable_node.mpr ⟨p1, readable_leaf hd hu, p3, starts_node rfl, p5⟩
            | node => exact readable_node.mpr ⟨p1, readable_add _ _ _ hd hu p2, p3, add_keeps_first _ _ _ _ p4 rfl, p5⟩
          · rw [e] at hd ⊢
            cases zero with
            | nil => exact readable_node.mpr ⟨p1, p2, readable_leaf hd hu, p4, starts_node rfl⟩
            | node => exact readable_node.mpr ⟨p1, p2, readable_add _ _ _ hd hu p3, p4, add_keeps_first _ _ _ _ p5 rfl⟩
        · exact hp
    · rename_i hpre
      obtain ⟨l1, l2, l3⟩ := lcp2_spec fs f.str
      have hlb : IsBitStr (lcp [fs, f.str]) := fun c hc => hb c (l1.subset hc)
      have hroot : ∀ o, Printable ([], some (newFilter (lcp [fs, f.str]) o)) := fun o => printable_new hlb (by simp)
      split
      · exact readable_node.mpr ⟨hroot _, p2, p3, p4, p5⟩
      · rename_i hlen
        have hd := isBitStr_drop hb (lcp [fs, f.str]).length
        have hnew : (PNode.node u (newFilter (f.str.drop (lcp [fs, f.str]).length) (f.offset + (lcp [fs, f.str]).length)) one zero).Readable :=
          readable_node.mpr ⟨printable_new (isBitStr_drop hfb _) p1.1, p2, p3, p4, p5⟩
        -- the rest of the old filter starts with the other bit
        have other : ∀ c r, fs.drop (lcp [fs, f.str]).length = c :: r →
            (f.str.drop (lcp [fs, f.str]).length).head? = some (if c = '1' then '0' else '1') := by
          intro c r hc
          exact other_bit hb hfb l1 l2 l3 (fun h => hpre ((hasPrefix_iff _ _).mpr h)) hc
        rcases bit_cases hd with e | ⟨r, e⟩ | ⟨r, e⟩
        · rw [e]; exact readable_node.mpr ⟨hroot _, p2, p3, p4, p5⟩
        · have ho := other _ _ e
          rw [e] at hd ⊢
          exact readable_node.mpr ⟨hroot _, readable_leaf hd hu, hnew, starts_node rfl, starts_node ho⟩
        · have ho := other _ _ e
          rw [e] at hd ⊢
          exact readable_node.mpr ⟨hroot _, hnew, readable_leaf hd hu, starts_node ho, starts_node rfl⟩

theorem delete_keeps_first (t : PNode) (fs : Str) (c : Char) (h : t.Starts c) : (t.delete fs).Starts c := by
  cases t with
  | nil => exact starts_nil _
  | node u f one zero =>
    have hf := h u f one zero rfl
    have hne : f.str ≠ [] := by intro e; rw [e] at hf; simp at hf
    have happ : ∀ x : Str, (f.str ++ x).head? = some c := by
      intro x
      rw [List.head?_append, hf]; rfl
    rw [PNode.delete.eq_def]
    dsimp only
    repeat' split
    all_goals first
      | exact starts_node hf
      | exact starts_node (happ _)

theorem readable_delete : ∀ (t : PNode) (fs : Str), t.Readable → (t.delete fs).Readable
  | .nil, _, _ => readable_nil
  | .node u f one zero, fs, hp => by
    obtain ⟨p1, p2, p3, p4, p5⟩ := readable_node.mp hp
    have hfb := printable_str p1
    have happ : ∀ {u' : Str} {g : FilterObject}, Printable (u', some g) → ∀ o, Printable (u', some (newFilter (f.str ++ g.str) o)) := by
      intro u' g h o
      refine printable_new ?_ h.1
      intro c hc
      rcases List.mem_append.mp hc with hc | hc
      · exact hfb c hc
      · exact printable_str h c hc
    rw [PNode.delete.eq_def]
    dsimp only
    split
    · exact hp
    · split
      · split
        · exact readable_node.mpr ⟨printable_uri p1 (by simp), p2, p3, p4, p5⟩
        · obtain ⟨q1, q2, q3, q4, q5⟩ := readable_node.mp p2
          exact readable_node.mpr ⟨happ q1 _, q2, q3, q4, q5⟩
        · obtain ⟨q1, q2, q3, q4, q5⟩ := readable_node.mp p3
          exact readable_node.mpr ⟨happ q1 _, q2, q3, q4, q5⟩
        · exact hp
      · split
        · split
          · cases one with
            | nil => exact hp
            | node =>
              dsimp only
              split
              · exact readable_node.mpr ⟨p1, readable_nil, p3, starts_nil _, p5⟩
              · exact readable_node.mpr ⟨p1, readable_delete _ _ p2, p3, delete_keeps_first _ _ _ p4, p5⟩
          · cases zero with
            | nil => exact hp
            | node =>
              dsimp only
              split
              · exact readable_node.mpr ⟨p1, p2, readable_nil, p4, starts_nil _⟩
              · exact readable_node.mpr ⟨p1, p2, readable_delete _ _ p3, p4, delete_keeps_first _ _ _ p5⟩
          · exact hp
        · exact hp

theorem wf_readable : ∀ (t : PNode) (P : Str), PNode.WF P t → (∀ e ∈ PNode.content P t, '\n' ∉ e.2) → t.Readable
  | .nil, _, _, _ => readable_nil
  | .node u f one zero, P, ⟨h1, h2, h3, h4, h5, h6⟩, hu => by
    have st : ∀ (t : PNode) (c : Char), (t ≠ .nil → t.str.head? = some c) → t.Starts c := by
      rintro t c h u f o z rfl
      exact h (by simp)
    refine readable_node.mpr ⟨⟨?_, f, rfl, h1, ?_⟩, wf_readable one _ h3 fun e he => hu e (by simp [PNode.content, he]),
      wf_readable zero _ h4 fun e he => hu e (by simp [PNode.content, he]), st _ _ h5, st _ _ h6⟩
    · by_cases hu0 : u = []
      · subst hu0; simp
      · exact hu (P ++ f.str, u) (by simp [PNode.content, hu0])
    · have : f.offset = P.length := by rw [h2]; rfl
      rw [this]; exact h2

theorem readable_fresh (mk : Encoder) (sub : Subs) (hs : TextSafe mk sub) : (newPatricia mk sub).Readable := by
  obtain ⟨h1, -, -, h2⟩ := newPatricia_spec _ (isMap_toByteSubscriptions mk sub) fun e he => (hs e.1 e.2 he).1
  exact wf_readable _ [] h1 fun e he => (hs e.1 e.2 ((h2 e).mp he).1).2

theorem readable_op {mk : Encoder} {t : PNode} {op : SubsOp} (ho : op.TextSafe mk) (h : t.Readable) : (t.applyOp mk op).Readable := by
  cases op with
  | add s =>
    simp only [PNode.applyOp, PNode.addSubscription]
    have : ∀ (ks : List Str) (t : PNode), (∀ k ∈ ks, k ∈ mapKeys (toByteSubscriptions mk s)) → t.Readable →
        (ks.foldl (fun t fs => t.add fs ((mapGet (toByteSubscriptions mk s) fs).getD [])) t).Readable := by
      intro ks
      induction ks with
      | nil => intro t _ h; exact h
      | cons k ks ih =>
        intro t hk h
        have hs := safe_key ho (hk k (by simp))
        exact ih _ (fun k hk' => hk k (by simp [hk'])) (readable_add t k _ hs.1 hs.2 h)
    exact this _ t (fun _ h => h) h
  | delete s =>
    simp only [PNode.applyOp, PNode.deleteSubscription]
    generalize mapKeys (toByteSubscriptions mk s) = ks
    induction ks generalizing t with
    | nil => exact h
    | cons k ks ih => exact ih (readable_delete t k h)

theorem readable_history {mk : Encoder} {sub : Subs} (hs : TextSafe mk sub) : ∀ (ops : List SubsOp),
    (∀ op ∈ ops, op.TextSafe mk) → (ops.foldl (PNode.applyOp mk) (newPatricia mk sub)).Readable := by
  have : ∀ (ops : List SubsOp) (t : PNode), (∀ op ∈ ops, op.TextSafe mk) → t.Readable → (ops.foldl (PNode.applyOp mk) t).Readable := by
    intro ops
    induction ops with
    | nil => intro t _ h; exact h
    | cons o ops ih => intro t ho h; exact ih _ (fun o ho' => ho o (by simp [ho'])) (readable_op (ho o (by simp)) h)
  exact fun ops ho => this ops _ ho (readable_fresh mk sub hs)

/-! ### the List engine -/

theorem list_text : ∀ l : ListEngine, TextSays false (listLines l) l.dump
  | [] => textSays_nil _
  | e :: l => by
    have h1 : (nodeLine 0 [] e.2 e.1).Says false (['-', '-'] ++ e.1.toStr ++ [' '] ++ e.2) :=
      ⟨decStr e.1.offset, decStr e.1.size, e.2, decStr_numeral _, decStr_numeral _, by simp [nodeLine],
        by simp [nodeLine, FilterObject.toStr]⟩
    have := textSays_append (textSays_one h1) (list_text l)
    simpa [listLines, ListEngine.dump] using this

theorem list_clean {l : ListEngine} (h : ∀ e ∈ l, Printable (e.2, some e.1)) : ∀ x ∈ listLines l, x.Clean := by
  intro x hx
  obtain ⟨e, he, rfl⟩ := List.mem_map.mp hx
  exact ⟨printable_str (h e he), (h e he).1, by simp [nodeLine]⟩

theorem listLines_inj : ∀ {l l' : ListEngine}, (∀ e ∈ l, Printable (e.2, some e.1)) → (∀ e ∈ l', Printable (e.2, some e.1)) →
    listLines l = listLines l' → l = l'
  | [], [], _, _, _ => rfl
  | [], _ :: _, _, _, h => by simp [listLines] at h
  | _ :: _, [], _, _, h => by simp [listLines] at h
  | e :: l, e' :: l', h1, h2, h => by
    simp only [listLines, List.map_cons, List.cons.injEq] at h
    obtain ⟨ha, hb⟩ := h
    have := listLines_inj (fun e he => h1 e (by simp [he])) (fun e he => h2 e (by simp [he])) hb
    simp only [nodeLine, DumpLine.mk.injEq, true_and] at ha
    obtain ⟨_, g, hg, _, hn⟩ := h1 e (by simp)
    obtain ⟨_, g', hg', _, hn'⟩ := h2 e' (by simp)
    cases hg; cases hg'
    have : e.1 = e'.1 := by rw [hn, hn', ha.1, ha.2.1]
    rw [‹l = l'›, Prod.ext this ha.2.2.2]

theorem exactMatches_printable {mk : Encoder} {sub : Subs} (hs : TextSafe mk sub) :
    ∀ e ∈ exactMatches (toByteSubscriptions mk sub), Printable (e.2, some e.1) := by
  intro e he
  obtain ⟨k, hk, h⟩ := List.mem_filterMap.mp he
  obtain ⟨u, hu, rfl⟩ := Option.map_eq_some_iff.mp h
  have h2 := safe_key hs hk
  rw [hu] at h2
  exact printable_new h2.1 h2.2

theorem addOne_mem {l : ListEngine} {em e : FilterObject × Str} (h : e ∈ l.addOne em) : e ∈ l ∨ e = em := by
  unfold ListEngine.addOne at h
  split at h
  · simpa using h
  · exact Or.inl h

theorem deleteOne_mem {l : ListEngine} {em e : FilterObject × Str} (h : e ∈ l.deleteOne em) : e ∈ l := by
  unfold ListEngine.deleteOne at h
  split at h
  · exact h
  · rcases List.mem_append.mp h with h | h
    · exact List.mem_of_mem_take h
    · exact List.mem_of_mem_drop h

theorem list_history {mk : Encoder} {sub : Subs} (hs : TextSafe mk sub) (ops : List SubsOp) (ho : ∀ op ∈ ops, op.TextSafe mk) :
    ∀ e ∈ ops.foldl (ListEngine.apply mk) (newList mk sub), Printable (e.2, some e.1) := by
  have addAll : ∀ (ems l : ListEngine), (∀ e ∈ ems, Printable (e.2, some e.1)) → (∀ e ∈ l, Printable (e.2, some e.1)) →
      ∀ e ∈ ems.foldl ListEngine.addOne l, Printable (e.2, some e.1) := by
    intro ems
    induction ems with
    | nil => intro l _ h; exact h
    | cons a ems ih =>
      intro l h1 h2
      refine ih _ (fun e he => h1 e (by simp [he])) fun e he => ?_
      rcases addOne_mem he with h | rfl
      · exact h2 e h
      · exact h1 _ (by simp)
  have delAll : ∀ (ems l : ListEngine), (∀ e ∈ l, Printable (e.2, some e.1)) →
      ∀ e ∈ ems.foldl ListEngine.deleteOne l, Printable (e.2, some e.1) := by
    intro ems
    induction ems with
    | nil => intro l h; exact h
    | cons a ems ih => intro l h2; exact ih _ fun e he => h2 e (deleteOne_mem he)
  have : ∀ (ops : List SubsOp) (l : ListEngine), (∀ op ∈ ops, op.TextSafe mk) → (∀ e ∈ l, Printable (e.2, some e.1)) →
      ∀ e ∈ ops.foldl (ListEngine.apply mk) l, Printable (e.2, some e.1) := by
    intro ops
    induction ops with
    | nil => intro l _ h; exact h
    | cons o ops ih =>
      intro l ho h
      refine ih _ (fun o ho' => ho o (by simp [ho'])) ?_
      have h1 := ho o (by simp)
      cases o with
      | add s => exact addAll _ l (exactMatches_printable h1) h
      | delete s => exact delAll _ l h
  exact this ops _ ho (exactMatches_printable hs)

end Gosstrak
