import Verif.Proofs.SplayUpdate
import Verif.Spec.Shelf

/-! Splay trees with the filters of their nodes written out, and what a search does to them. -/
namespace Gosstrak

/-- a tree of filters -/
inductive KTree where
  | nil
  | node (k : Str) (m mm : KTree)
deriving DecidableEq

namespace KTree

/-- the tree of the engine -/
def erase (b : FlatSubs) : KTree → SNode
  | .nil => .nil
  | .node k m mm => .node (uriOf b k) (some (newFilter (k.drop (ownStart b k)) (ownStart b k)))
      (erase b m) (erase b mm)

def chain : KTree → List Str
  | .nil => []
  | .node k _ mm => k :: chain mm

/-- every filter with the list behind it -/
def nodes : KTree → List (Str × List Str)
  | .nil => []
  | .node k m mm => (k, chain m) :: (nodes m ++ nodes mm)

def keys : KTree → List Str
  | .nil => []
  | .node k m mm => k :: (keys m ++ keys mm)

def walk (c : Str → Option Bool) : KTree → Bool → Option (List Str × KTree × List (Str × KTree))
  | .nil, _ => none
  | .node k m mm, first =>
    match c k with
    | none => none
    | some true =>
      match (if m = .nil then some ([], .nil, []) else walk c m true) with
      | none => none
      | some (ks, m', l) =>
        if first then some (k :: ks, .node k m' mm, l) else some (k :: ks, mm, l ++ [(k, m')])
    | some false =>
      if mm = .nil then some ([], .node k m mm, [])
      else match walk c mm false with
        | none => none
        | some (ks, mm', l) => some (ks, .node k m mm', l)

def attach (r : KTree) (n : Str × KTree) : KTree := .node n.1 n.2 r

def lifts (l : List (Str × KTree)) : List Str := (l.map Prod.fst).reverse

def lnodes (l : List (Str × KTree)) : List (Str × List Str) := l.flatMap fun n => (n.1, chain n.2) :: nodes n.2

def lkeys (l : List (Str × KTree)) : List Str := l.flatMap fun n => n.1 :: keys n.2

theorem erase_nil {b : FlatSubs} {T : KTree} : T.erase b = .nil ↔ T = .nil := by
  cases T <;> simp [erase]

end KTree

open KTree

/-- what the comparison of the own part of `k` with the tag gives -/
def ownTest (b : FlatSubs) (id : List Byte) (k : Str) : Option Bool :=
  (newFilter (k.drop (ownStart b k)) (ownStart b k)).matchID id

theorem erase_walk (b : FlatSubs) (id : List Byte) : ∀ (T : KTree) (first : Bool),
    (T.erase b).splaySearch first id = (T.walk (ownTest b id) first).map fun r =>
      (r.1.map (uriOf b), r.2.1.erase b, r.2.2.map fun n =>
        (uriOf b n.1, some (newFilter (n.1.drop (ownStart b n.1)) (ownStart b n.1)), n.2.erase b))
  | .nil, _ => rfl
  | .node k m mm, first => by
    rw [erase, SNode.splaySearch, walk]
    have hc : (newFilter (k.drop (ownStart b k)) (ownStart b k)).matchID id = ownTest b id k := rfl
    rw [hc]
    cases ownTest b id k with
    | none => rfl
    | some r =>
      cases r with
      | true =>
        dsimp only
        by_cases hm : m = .nil
        · subst hm
          rw [if_pos (by rfl), if_pos rfl]
          cases first <;> rfl
        · rw [if_neg (fun h : m.erase b = .nil => hm (erase_nil.mp h)), if_neg hm, erase_walk b id m true]
          cases walk (ownTest b id) m true with
          | none => rfl
          | some r =>
            obtain ⟨ks, m', l⟩ := r
            cases first
            · simp
            · simp [erase]
      | false =>
        dsimp only
        by_cases hm : mm = .nil
        · subst hm
          rw [if_pos (by rfl), if_pos rfl]
          rfl
        · rw [if_neg (fun h : mm.erase b = .nil => hm (erase_nil.mp h)), if_neg hm, erase_walk b id mm false]
          cases walk (ownTest b id) mm false with
          | none => rfl
          | some r => rfl

/-- `Walk` for any way of comparing -/
inductive CWalk (c : Str → Option Bool) (v : Shelf) : List Str → List Str → Prop
  | done : CWalk c v [] []
  | miss {k : Str} {l ks : List Str} : c k = some false → CWalk c v l ks → CWalk c v (k :: l) ks
  | hit {k : Str} {l ks : List Str} : c k = some true → CWalk c v (v (some k)) ks → CWalk c v (k :: l) (k :: ks)

theorem keys_nodes : ∀ T : KTree, T.keys = T.nodes.map Prod.fst
  | .nil => rfl
  | .node k m mm => by simp [keys, KTree.nodes, keys_nodes m, keys_nodes mm]

theorem chain_keys : ∀ (T : KTree) {k : Str}, k ∈ T.chain → k ∈ T.keys
  | .nil, k, h => by simp [KTree.chain] at h
  | .node a m mm, k, h => by
    simp only [KTree.chain, List.mem_cons] at h
    rcases h with rfl | h
    · simp [keys]
    · simp [keys, chain_keys mm h]

theorem node_keys : ∀ (T : KTree) {e : Str × List Str}, e ∈ T.nodes → ∀ {k : Str}, k ∈ e.2 → k ∈ T.keys
  | .nil, e, h, k, hk => by simp [KTree.nodes] at h
  | .node a m mm, e, h, k, hk => by
    simp only [KTree.nodes, List.mem_cons, List.mem_append] at h
    simp only [keys, List.mem_cons, List.mem_append]
    rcases h with rfl | h | h
    · exact Or.inr (Or.inl (chain_keys m hk))
    · exact Or.inr (Or.inl (node_keys m h hk))
    · exact Or.inr (Or.inr (node_keys mm h hk))

theorem keys_placed : ∀ (T : KTree) {k : Str}, k ∈ T.keys → k ∈ T.chain ∨ ∃ e ∈ T.nodes, k ∈ e.2
  | .nil, k, h => by simp [keys] at h
  | .node a m mm, k, h => by
    simp only [keys, List.mem_cons, List.mem_append] at h
    simp only [KTree.chain, KTree.nodes, List.mem_cons, List.mem_append]
    rcases h with rfl | h | h
    · exact Or.inl (Or.inl rfl)
    · rcases keys_placed m h with h | ⟨e, he, h⟩
      · exact Or.inr ⟨_, Or.inl rfl, h⟩
      · exact Or.inr ⟨e, Or.inr (Or.inl he), h⟩
    · rcases keys_placed mm h with h | ⟨e, he, h⟩
      · exact Or.inl (Or.inr h)
      · exact Or.inr ⟨e, Or.inr (Or.inr he), h⟩

theorem filter_out {l ks : List Str} (h : ∀ k ∈ l, k ∉ ks) : l.filter (· ∉ ks) = l := by
  rw [List.filter_eq_self]
  intro a ha
  simpa using h a ha

/-- `moved` when the first of the list is not among the found ones -/
def movedRest (v : Shelf) : List Str → List Str
  | [] => []
  | k :: ks => k :: moved v (v (some k)) ks

theorem cwalk_first {c : Str → Option Bool} {v : Shelf} {l ks : List Str} (h : CWalk c v l ks) :
    ∀ k, ks.head? = some k → k ∈ l := by
  induction h with
  | done => simp
  | miss _ _ ih => exact fun k hk => List.mem_cons_of_mem _ (ih k hk)
  | hit _ _ _ => intro k hk; simp at hk; simp [hk]

theorem walk_spec (c : Str → Option Bool) (v : Shelf) : ∀ (T : KTree) (first : Bool), T ≠ .nil →
    (∀ e ∈ T.nodes, v (some e.1) = e.2) → T.keys.Nodup →
    (T.walk c first = none → ∀ ks, ¬ CWalk c v T.chain ks) ∧
    ∀ ks R L, T.walk c first = some (ks, R, L) →
      CWalk c v T.chain ks ∧
      lifts L = (if first then moved v T.chain ks else movedRest v ks) ∧
      (lkeys L ++ R.keys).Perm T.keys ∧
      R.chain = T.chain.filter (· ∉ lifts L) ∧
      ∀ e ∈ lnodes L ++ R.nodes, ∃ l, (e.1, l) ∈ T.nodes ∧ e.2 = l.filter (· ∉ lifts L)
  | .nil, _, h, _, _ => absurd rfl h
  | .node k m mm, first, _, hv, hn => by
    rw [keys, List.nodup_cons, List.nodup_append] at hn
    obtain ⟨hk, hnm, hnmm, hdis⟩ := hn
    have hkm : k ∉ m.keys := fun h => hk (by simp [h])
    have hkmm : k ∉ mm.keys := fun h => hk (by simp [h])
    have hvk : v (some k) = m.chain := hv (k, m.chain) (by simp [KTree.nodes])
    have hvm : ∀ e ∈ m.nodes, v (some e.1) = e.2 := fun e he => hv e (by simp [KTree.nodes, he])
    have hvmm : ∀ e ∈ mm.nodes, v (some e.1) = e.2 := fun e he => hv e (by simp [KTree.nodes, he])
    have lsub : ∀ (L : List (Str × KTree)) (R T : KTree), (lkeys L ++ R.keys).Perm T.keys →
        ∀ x ∈ lifts L, x ∈ T.keys := by
      intro L R T hp x hx
      rw [← hp.mem_iff]
      simp only [lifts, List.mem_reverse, List.mem_map] at hx
      obtain ⟨n, hn, rfl⟩ := hx
      apply List.mem_append_left
      rw [lkeys, List.mem_flatMap]
      exact ⟨n, hn, by simp⟩
    rw [walk]
    cases hc : c k with
    | none =>
      refine ⟨fun _ ks h => ?_, fun ks R L h => by simp at h⟩
      cases h with
      | miss h1 _ => rw [hc] at h1; cases h1
      | hit h1 _ => rw [hc] at h1; cases h1
    | some r =>
      cases r with
      | true =>
        dsimp only
        -- the nested search
        have sub : ((if m = .nil then some ([], .nil, []) else m.walk c true) = none →
              ∀ ks, ¬ CWalk c v m.chain ks) ∧
            ∀ ks R L, (if m = .nil then some ([], .nil, []) else m.walk c true) = some (ks, R, L) →
              CWalk c v m.chain ks ∧ lifts L = moved v m.chain ks ∧
              (lkeys L ++ R.keys).Perm m.keys ∧ R.chain = m.chain.filter (· ∉ lifts L) ∧
              ∀ e ∈ lnodes L ++ R.nodes, ∃ l, (e.1, l) ∈ m.nodes ∧ e.2 = l.filter (· ∉ lifts L) := by
          by_cases hm : m = .nil
          · subst hm
            refine ⟨fun h => by simp at h, fun ks R L h => ?_⟩
            simp only [if_true, Option.some.injEq, Prod.mk.injEq] at h
            obtain ⟨rfl, rfl, rfl⟩ := h
            exact ⟨.done, rfl, by simp [lkeys, keys], rfl, by simp [lnodes, KTree.nodes]⟩
          · rw [if_neg hm]
            obtain ⟨i1, i2⟩ := walk_spec c v m true hm hvm hnm
            refine ⟨i1, fun ks R L h => ?_⟩
            have := i2 ks R L h
            simpa using this
        obtain ⟨s1, s2⟩ := sub
        cases hs : (if m = .nil then some ([], .nil, []) else m.walk c true) with
        | none =>
          refine ⟨fun _ ks h => ?_, fun ks R L h => by simp at h⟩
          cases h with
          | miss h1 _ => rw [hc] at h1; cases h1
          | hit _ h2 => rw [hvk] at h2; exact s1 hs _ h2
        | some r =>
          obtain ⟨ks', m', l'⟩ := r
          obtain ⟨a1, a2, a3, a4, a5⟩ := s2 _ _ _ hs
          have hl' := lsub _ _ _ a3
          dsimp only
          refine ⟨fun h => by cases first <;> simp at h, fun ks R L h => ?_⟩
          have stay : ∀ e ∈ mm.nodes, e.2 = e.2.filter (· ∉ lifts l') := fun e he =>
            (filter_out fun x hx h => hdis x (hl' x h) x (node_keys mm he hx) rfl).symm
          have hch : mm.chain.filter (· ∉ lifts l') = mm.chain :=
            filter_out fun x hx h => hdis x (hl' x h) x (chain_keys mm hx) rfl
          cases first with
          | true =>
            simp only [if_true, Option.some.injEq, Prod.mk.injEq] at h
            obtain ⟨rfl, rfl, rfl⟩ := h
            refine ⟨.hit hc (by rw [hvk]; exact a1), ?_, ?_, ?_, ?_⟩
            · simp only [if_true, KTree.chain, moved, List.head?_cons, List.nil_append, hvk, a2]
            · simp only [keys]
              refine List.perm_middle.trans (List.Perm.cons _ ?_)
              rw [← List.append_assoc]
              exact a3.append_right _
            · simp only [KTree.chain]
              rw [List.filter_cons_of_pos (by simpa using fun h => hkm (hl' k h)), hch]
            · intro e he
              simp only [KTree.nodes, List.mem_append, List.mem_cons] at he
              simp only [KTree.nodes, List.mem_append, List.mem_cons]
              rcases he with he | rfl | he | he
              · obtain ⟨l, b1, b2⟩ := a5 e (List.mem_append_left _ he)
                exact ⟨l, Or.inr (Or.inl b1), b2⟩
              · exact ⟨m.chain, Or.inl rfl, a4⟩
              · obtain ⟨l, b1, b2⟩ := a5 e (List.mem_append_right _ he)
                exact ⟨l, Or.inr (Or.inl b1), b2⟩
              · exact ⟨e.2, Or.inr (Or.inr he), stay e he⟩
          | false =>
            simp only [Bool.false_eq_true, if_false, Option.some.injEq, Prod.mk.injEq] at h
            obtain ⟨rfl, rfl, rfl⟩ := h
            have hlift : lifts (l' ++ [(k, m')]) = k :: lifts l' := by simp [lifts]
            have hln : lnodes (l' ++ [(k, m')]) = lnodes l' ++ (k, m'.chain) :: m'.nodes := by simp [lnodes]
            have hlk : lkeys (l' ++ [(k, m')]) = lkeys l' ++ k :: m'.keys := by simp [lkeys]
            have more : ∀ l : List Str, k ∉ l → l.filter (· ∉ k :: lifts l') = l.filter (· ∉ lifts l') := by
              intro l hl
              apply List.filter_congr
              intro x hx
              have : x ≠ k := fun h => hl (h ▸ hx)
              simp [this]
            rw [hlift, hln, hlk]
            refine ⟨.hit hc (by rw [hvk]; exact a1), ?_, ?_, ?_, ?_⟩
            · simp only [Bool.false_eq_true, if_false, movedRest, hvk, a2]
            · simp only [keys]
              rw [List.append_assoc, List.cons_append]
              refine List.perm_middle.trans (List.Perm.cons _ ?_)
              rw [← List.append_assoc]
              exact a3.append_right _
            · simp only [KTree.chain]
              rw [List.filter_cons_of_neg (by simp), more _ fun h => hkmm (chain_keys mm h), hch]
            · intro e he
              simp only [List.mem_append, List.mem_cons] at he
              have memN : ∀ p, p = (k, m.chain) ∨ p ∈ m.nodes ∨ p ∈ mm.nodes → p ∈ KTree.nodes (.node k m mm) := by
                intro p hp
                simp only [KTree.nodes, List.mem_append, List.mem_cons]
                exact hp
              have old : ∀ e ∈ lnodes l' ++ m'.nodes, ∃ l, (e.1, l) ∈ KTree.nodes (.node k m mm) ∧
                  e.2 = l.filter (· ∉ k :: lifts l') := by
                intro e he
                obtain ⟨l, b1, b2⟩ := a5 e he
                exact ⟨l, memN _ (Or.inr (Or.inl b1)), by rw [more _ fun h => hkm (node_keys m b1 h)]; exact b2⟩
              rcases he with (he | rfl | he) | he
              · exact old e (List.mem_append_left _ he)
              · exact ⟨m.chain, memN _ (Or.inl rfl), by rw [more _ fun h => hkm (chain_keys m h)]; exact a4⟩
              · exact old e (List.mem_append_right _ he)
              · exact ⟨e.2, memN _ (Or.inr (Or.inr he)), by
                  rw [more _ fun h => hkmm (node_keys mm he h)]; exact stay e he⟩
      | false =>
        dsimp only
        by_cases hm : mm = .nil
        · subst hm
          rw [if_pos rfl]
          refine ⟨fun h => by simp at h, fun ks R L h => ?_⟩
          simp only [Option.some.injEq, Prod.mk.injEq] at h
          obtain ⟨rfl, rfl, rfl⟩ := h
          refine ⟨.miss hc .done, by cases first <;> rfl, by simp [lkeys], (filter_out (by simp [lifts])).symm, ?_⟩
          intro e he
          exact ⟨e.2, by simpa [lnodes] using he, (filter_out (by simp [lifts])).symm⟩
        · rw [if_neg hm]
          obtain ⟨i1, i2⟩ := walk_spec c v mm false hm hvmm hnmm
          cases hs : mm.walk c false with
          | none =>
            refine ⟨fun _ ks h => ?_, fun ks R L h => by simp at h⟩
            cases h with
            | miss _ h2 => exact i1 hs _ h2
            | hit h1 _ => rw [hc] at h1; cases h1
          | some r =>
            obtain ⟨ks', mm', l'⟩ := r
            obtain ⟨a1, a2, a3, a4, a5⟩ := i2 _ _ _ hs
            have hl' := lsub _ _ _ a3
            dsimp only
            refine ⟨fun h => by simp at h, fun ks R L h => ?_⟩
            simp only [Option.some.injEq, Prod.mk.injEq] at h
            obtain ⟨rfl, rfl, rfl⟩ := h
            refine ⟨.miss hc a1, ?_, ?_, ?_, ?_⟩
            · rw [a2]
              cases first with
              | false => rfl
              | true =>
                simp only [Bool.false_eq_true, if_false, if_true]
                cases ks' with
                | nil => rfl
                | cons x xs =>
                  have hx := cwalk_first a1 x rfl
                  have hne : ¬ (KTree.chain (.node k m mm)).head? = some x := by
                    simp only [KTree.chain, List.head?_cons, Option.some.injEq]
                    rintro rfl
                    exact hkmm (chain_keys mm hx)
                  rw [moved, if_neg hne]
                  rfl
            · simp only [keys]
              refine List.perm_middle.trans (List.Perm.cons _ ?_)
              rw [← List.append_assoc]
              refine (List.perm_append_comm.append_right _).trans ?_
              rw [List.append_assoc]
              exact a3.append_left _
            · simp only [KTree.chain]
              rw [List.filter_cons_of_pos (by simpa using fun h => hkmm (hl' k h)), a4]
            · intro e he
              simp only [KTree.nodes, List.mem_append, List.mem_cons] at he
              simp only [KTree.nodes, List.mem_append, List.mem_cons]
              rcases he with he | rfl | he | he
              · obtain ⟨l, b1, b2⟩ := a5 e (List.mem_append_left _ he)
                exact ⟨l, Or.inr (Or.inr b1), b2⟩
              · exact ⟨m.chain, Or.inl rfl, (filter_out fun x hx h => hdis x (chain_keys m hx) x (hl' x h) rfl).symm⟩
              · exact ⟨e.2, Or.inr (Or.inl he),
                  (filter_out fun x hx h => hdis x (node_keys m he hx) x (hl' x h) rfl).symm⟩
              · obtain ⟨l, b1, b2⟩ := a5 e (List.mem_append_right _ he)
                exact ⟨l, Or.inr (Or.inr b1), b2⟩

/-! ### the lists of a tree -/

/-- the tree has these lists -/
def ShowsShelf (T : KTree) (v : Shelf) : Prop :=
  T ≠ .nil ∧ T.keys.Nodup ∧ T.chain = v none ∧ (∀ e ∈ T.nodes, v (some e.1) = e.2) ∧
  ∀ a, a ∉ T.keys → v (some a) = []

theorem attach_chain : ∀ (L : List (Str × KTree)) (R : KTree),
    (L.foldl KTree.attach R).chain = lifts L ++ R.chain
  | [], R => rfl
  | n :: L, R => by
    rw [List.foldl_cons, attach_chain L]
    simp [lifts, KTree.attach, KTree.chain]

theorem attach_keys : ∀ (L : List (Str × KTree)) (R : KTree),
    (L.foldl KTree.attach R).keys.Perm (lkeys L ++ R.keys)
  | [], R => List.Perm.refl _
  | n :: L, R => by
    rw [List.foldl_cons]
    refine (attach_keys L _).trans ?_
    have h1 : (KTree.attach R n).keys = (n.1 :: n.2.keys) ++ R.keys := by simp [KTree.attach, keys]
    have h2 : lkeys (n :: L) = (n.1 :: n.2.keys) ++ lkeys L := by simp [lkeys]
    rw [h1, h2, ← List.append_assoc]
    exact List.perm_append_comm.append_right _

theorem attach_mem : ∀ (L : List (Str × KTree)) (R : KTree) (e : Str × List Str),
    e ∈ (L.foldl KTree.attach R).nodes → e ∈ lnodes L ++ R.nodes
  | [], R, e, h => by simpa [lnodes] using h
  | n :: L, R, e, h => by
    rw [List.foldl_cons] at h
    have := attach_mem L _ e h
    have h2 : lnodes (n :: L) = ((n.1, n.2.chain) :: n.2.nodes) ++ lnodes L := by simp [lnodes]
    rw [h2]
    simp only [KTree.attach, KTree.nodes, List.mem_append, List.mem_cons] at this ⊢
    rcases this with h | h | h | h
    · exact Or.inl (Or.inr h)
    · exact Or.inl (Or.inl (Or.inl h))
    · exact Or.inl (Or.inl (Or.inr h))
    · exact Or.inr h

/-- a search that moves nothing leaves the tree as it is -/
theorem walk_same (c : Str → Option Bool) : ∀ (T : KTree) (first : Bool) (ks : List Str) (R : KTree),
    T.walk c first = some (ks, R, []) → R = T
  | .nil, _, _, _, h => by simp [walk] at h
  | .node k m mm, first, ks, R, h => by
    rw [walk] at h
    cases hc : c k with
    | none => rw [hc] at h; simp at h
    | some r =>
      rw [hc] at h
      cases r with
      | true =>
        dsimp only at h
        cases hs : (if m = .nil then some ([], .nil, []) else m.walk c true) with
        | none => rw [hs] at h; simp at h
        | some r =>
          obtain ⟨ks', m', l'⟩ := r
          rw [hs] at h
          cases first with
          | false => simp at h
          | true =>
            simp only [if_true, Option.some.injEq, Prod.mk.injEq] at h
            obtain ⟨-, rfl, rfl⟩ := h
            by_cases hm : m = .nil
            · subst hm
              simp at hs
              rw [← hs.2]
            · rw [if_neg hm] at hs
              rw [walk_same c m true _ _ hs]
      | false =>
        dsimp only at h
        by_cases hm : mm = .nil
        · rw [if_pos hm] at h
          simp only [Option.some.injEq, Prod.mk.injEq] at h
          exact h.2.1.symm
        · rw [if_neg hm] at h
          cases hs : mm.walk c false with
          | none => rw [hs] at h; simp at h
          | some r =>
            obtain ⟨ks', mm', l'⟩ := r
            rw [hs] at h
            simp only [Option.some.injEq, Prod.mk.injEq] at h
            obtain ⟨-, rfl, rfl⟩ := h
            rw [walk_same c mm false _ _ hs]

theorem walk_answers (c : Str → Option Bool) : ∀ (T : KTree) (first : Bool), T ≠ .nil →
    (∀ k ∈ T.keys, c k ≠ none) → T.walk c first ≠ none
  | .nil, _, h, _ => absurd rfl h
  | .node k m mm, first, _, hc => by
    rw [walk]
    cases h : c k with
    | none => exact absurd h (hc k (by simp [keys]))
    | some r =>
      cases r with
      | true =>
        dsimp only
        have hs : (if m = .nil then some ([], .nil, []) else m.walk c true) ≠ none := by
          by_cases hm : m = .nil
          · rw [if_pos hm]; simp
          · rw [if_neg hm]
            exact walk_answers c m true hm fun k hk => hc k (by simp [keys, hk])
        cases hs' : (if m = .nil then some ([], .nil, []) else m.walk c true) with
        | none => exact absurd hs' hs
        | some r => cases first <;> simp
      | false =>
        dsimp only
        by_cases hm : mm = .nil
        · rw [if_pos hm]; simp
        · rw [if_neg hm]
          have := walk_answers c mm false hm fun k hk => hc k (by simp [keys, hk])
          cases hs : mm.walk c false with
          | none => exact absurd hs this
          | some r => simp

/-- a search of the tree is a walk through its lists, which are rearranged -/
theorem shelf_search (b : FlatSubs) {T : KTree} {v : Shelf} (h : ShowsShelf T v) (id : List Byte) :
    ((T.erase b).search id = none → ∀ ks, ¬ CWalk (ownTest b id) v (v none) ks) ∧
    ∀ uris t', (T.erase b).search id = some (uris, t') →
      ∃ ks T', CWalk (ownTest b id) v (v none) ks ∧ uris = ks.map (uriOf b) ∧ t' = T'.erase b ∧
        ShowsShelf T' (v.after ks) ∧ (moved v (v none) ks = [] → T' = T) ∧ T'.keys.Perm T.keys := by
  obtain ⟨h1, h2, h3, h4, h5⟩ := h
  obtain ⟨w1, w2⟩ := walk_spec (ownTest b id) v T true h1 h4 h2
  unfold SNode.search
  rw [erase_walk]
  cases hw : T.walk (ownTest b id) true with
  | none =>
    refine ⟨fun _ => by rw [← h3]; exact w1 hw, fun uris t' h => by simp at h⟩
  | some r =>
    obtain ⟨ks, R, L⟩ := r
    refine ⟨fun h => by simp at h, fun uris t' h => ?_⟩
    simp only [Option.map_some, Option.some.injEq, Prod.mk.injEq] at h
    obtain ⟨rfl, rfl⟩ := h
    obtain ⟨a1, a2, a3, a4, a5⟩ := w2 _ _ _ hw
    rw [if_pos rfl, h3] at a2
    rw [h3] at a1
    have hfold : ∀ (L : List (Str × KTree)) (R : KTree),
        (L.map fun n => (uriOf b n.1, some (newFilter (n.1.drop (ownStart b n.1)) (ownStart b n.1)),
          n.2.erase b)).foldl SNode.attach (R.erase b) = (L.foldl KTree.attach R).erase b := by
      intro L
      induction L with
      | nil => intro R; rfl
      | cons n L ih => intro R; rw [List.map_cons, List.foldl_cons, List.foldl_cons, ← ih]; rfl
    have hp := (attach_keys L R).trans a3
    refine ⟨ks, L.foldl KTree.attach R, a1, rfl, hfold L R, ?_, ?_, hp⟩
    case refine_2 =>
      intro h0
      rw [← a2] at h0
      have hL : L = [] := by
        cases L with
        | nil => rfl
        | cons n L => simp [lifts] at h0
      subst hL
      exact walk_same _ T true _ _ hw
    refine ⟨?_, hp.nodup_iff.mpr h2, ?_, ?_, ?_⟩
    · intro h0
      rw [h0] at hp
      cases T with
      | nil => exact h1 rfl
      | node k m mm =>
        have := hp.length_eq
        simp [keys] at this
    · rw [attach_chain, a4, a2, h3]
      rfl
    · intro e he
      obtain ⟨l, b1, b2⟩ := a5 e (attach_mem L R e he)
      rw [b2, a2, Shelf.after, h4 _ b1]
    · intro a ha
      rw [Shelf.after, h5 a fun h => ha (hp.mem_iff.mpr h)]
      rfl

end Gosstrak
