import Verif.Proofs.MemoryBuild
import Verif.Props.Splay

/-! # C77: the splay tree in memory -/
namespace Gosstrak

/-- C77: `NewSplayTree` leaves a tree in memory, the one of the model. -/
theorem C77_new (mk : Encoder) (sub : Subs) :
    ∃ t N, newSplay mk sub = some t ∧ ∀ n, N ≤ n → ∀ h, ∃ s, newSplayMem mk n h sub = .ok s ∧
      IsTreeAt s.heap s.root t := by
  obtain ⟨l, h1, h2, h3, -⟩ := linkSubset_spec _ (isMap_toByteSubscriptions mk sub)
  by_cases hl : l = []
  · subst hl
    refine ⟨.node [] none .nil .nil, 1, by simp [newSplay, newSplayFrom, h1], fun n hn h => ?_⟩
    cases n with
    | zero => omega
    | succ n =>
      refine ⟨⟨h.alloc.1, some h.next⟩, ?_, [h.next], holds_leaf (by rw [alloc_get, if_pos rfl]), ?_⟩
      · simp only [newSplayMem, h1, splayBuild]
        rfl
      · simp [Mem.alloc]
  · have hlen : ∀ q u, Full l q u → q.length ≤ maxKeyLength (toByteSubscriptions mk sub) := fun q u h =>
      le_maxKeyLength _ (q, u) ((h3 q u).mp h)
    have hf : BuildFits (maxKeyLength (toByteSubscriptions mk sub) + 2) l := by
      refine fits_of_linked _ l h2 (fun q u h => ?_) (Or.inr fun q u h => ?_) hl
      · have := hlen q u h; omega
      · have := hlen q u h; omega
    refine ⟨SNode.build (maxKeyLength (toByteSubscriptions mk sub) + 2) l,
      maxKeyLength (toByteSubscriptions mk sub) + 2, ?_, fun n hn h => ?_⟩
    · rw [newSplay, newSplayFrom, h1, Option.map_some, if_neg (by simpa using hl)]
    · obtain ⟨h', d', i1, i2, i3, i4, -⟩ := splayBuild_refines n l h.alloc.1 h.next (hf.mono hn) hl
        ⟨{}, by rw [alloc_get, if_pos rfl]⟩ (by simp [Mem.alloc])
      refine ⟨⟨h', some h.next⟩, ?_, d', ?_, fun x hx => ?_⟩
      · have : h.alloc.2 = h.next := rfl
        simp only [newSplayMem, h1, this, i1, Out.bind]
      · rw [← hf.build_eq hn]; exact i2
      · have hn' : h.alloc.1.next = h.next + 1 := rfl
        rcases i3 x hx with hx | hx
        · simp at hx; subst hx; show h.next < h'.next; omega
        · exact hx.2

theorem holds_lt {h h' : Mem} {d d' : List Nat} (hd : ∀ x ∈ d, x < h.next) (hf : From h h' d d')
    (hn : h.next ≤ h'.next) : ∀ x ∈ d', x < h'.next := by
  intro x hx
  rcases hf x hx with hx | hx
  · have := hd x hx; omega
  · exact hx.2

theorem mem_add_loop (val : Str → Str) : ∀ (ks : List Str) (t : SNode), ∃ N, ∀ n, N ≤ n → ∀ s : SplayMem,
    IsTreeAt s.heap s.root t →
    match ks.foldlM (fun t fs => t.add fs (val fs)) t with
    | none => Out.loop (fun (s : SplayMem) fs => match s.root with
      | none => .panic
      | some a => (splayAdd n s.heap a fs (val fs)).bind fun h => .ok { s with heap := h }) ks s = .panic
    | some t' => ∃ s', Out.loop (fun (s : SplayMem) fs => match s.root with
      | none => .panic
      | some a => (splayAdd n s.heap a fs (val fs)).bind fun h => .ok { s with heap := h }) ks s = .ok s' ∧
        IsTreeAt s'.heap s'.root t'
  | [], t => ⟨0, fun n _ s hs => ⟨s, rfl, hs⟩⟩
  | k :: ks, t => by
    cases hadd : t.add k (val k) with
    | none =>
      refine ⟨t.count, fun n hn s ⟨d, hs, hd⟩ => ?_⟩
      rw [List.foldlM_cons, hadd]
      simp only [Out.loop, Option.bind_eq_bind, Option.bind_none]
      cases hr : s.root with
      | none => rfl
      | some a =>
        rw [hr] at hs
        have := splayAdd_refines (val k) t s.heap a d k n hs hd hn
        rw [hadd] at this
        simp only [this, Out.bind]
    | some t1 =>
      obtain ⟨N, hN⟩ := mem_add_loop val ks t1
      refine ⟨t.count + N, fun n hn s ⟨d, hs, hd⟩ => ?_⟩
      rw [List.foldlM_cons, hadd]
      simp only [Out.loop, Option.bind_eq_bind, Option.bind_some]
      cases hr : s.root with
      | none =>
        rw [hr] at hs
        rw [(holds_nil hs).1] at hadd
        simp [SNode.add] at hadd
      | some a =>
        rw [hr] at hs
        have := splayAdd_refines (val k) t s.heap a d k n hs hd (by omega)
        rw [hadd] at this
        obtain ⟨h', d', i1, i2, i3, i4, -⟩ := this
        simp only [i1, Out.bind]
        exact hN n (by omega) ⟨h', some a⟩ ⟨d', i2, holds_lt hd i3 i4⟩

theorem mem_delete_loop : ∀ (ks : List Str) (t : SNode), ∃ N, ∀ n, N ≤ n → ∀ s : SplayMem,
    IsTreeAt s.heap s.root t →
    match ks.foldlM SNode.delete t with
    | none => Out.loop (fun (s : SplayMem) fs => match s.root with
      | none => .panic
      | some a => (splayDelete n s.heap a fs).bind fun h => .ok { s with heap := h }) ks s = .panic
    | some t' => ∃ s', Out.loop (fun (s : SplayMem) fs => match s.root with
      | none => .panic
      | some a => (splayDelete n s.heap a fs).bind fun h => .ok { s with heap := h }) ks s = .ok s' ∧
        IsTreeAt s'.heap s'.root t'
  | [], t => ⟨0, fun n _ s hs => ⟨s, rfl, hs⟩⟩
  | k :: ks, t => by
    cases hadd : t.delete k with
    | none =>
      refine ⟨t.count, fun n hn s ⟨d, hs, hd⟩ => ?_⟩
      rw [List.foldlM_cons, hadd]
      simp only [Out.loop, Option.bind_eq_bind, Option.bind_none]
      cases hr : s.root with
      | none => rfl
      | some a =>
        rw [hr] at hs
        have := splayDelete_refines t s.heap a d k n hs hd hn
        rw [hadd] at this
        simp only [this, Out.bind]
    | some t1 =>
      obtain ⟨N, hN⟩ := mem_delete_loop ks t1
      refine ⟨t.count + N, fun n hn s ⟨d, hs, hd⟩ => ?_⟩
      rw [List.foldlM_cons, hadd]
      simp only [Out.loop, Option.bind_eq_bind, Option.bind_some]
      cases hr : s.root with
      | none =>
        rw [hr] at hs
        rw [(holds_nil hs).1] at hadd
        simp [SNode.delete] at hadd
      | some a =>
        rw [hr] at hs
        have := splayDelete_refines t s.heap a d k n hs hd (by omega)
        rw [hadd] at this
        obtain ⟨h', d', i1, i2, i3, i4, -⟩ := this
        simp only [i1, Out.bind]
        exact hN n (by omega) ⟨h', some a⟩ ⟨d', i2, holds_lt hd i3 i4⟩

/-- C77: every call on a tree in memory terminates; it panics if the model does, and otherwise leaves
    the tree of the model and gives the matches of the model. -/
theorem C77_call (mk : Encoder) (t : SNode) (c : SplayCall) :
    ∃ N, ∀ n, N ≤ n → ∀ s : SplayMem, IsTreeAt s.heap s.root t →
      (t.applyCall mk c = none → s.call mk n c = .panic) ∧
      (∀ t', t.applyCall mk c = some t' → ∃ s' ms, s.call mk n c = .ok (s', ms) ∧
        IsTreeAt s'.heap s'.root t' ∧ ∀ id, c = .search id → t.search id = some (ms, t')) := by
  cases c with
  | add sub =>
    obtain ⟨N, hN⟩ := mem_add_loop (fun fs => (mapGet (toByteSubscriptions mk sub) fs).getD [])
      (mapKeys (toByteSubscriptions mk sub)) t
    refine ⟨N, fun n hn s hs => ?_⟩
    have := hN n hn s hs
    simp only [SNode.applyCall, SNode.addSubscription, SplayMem.call]
    cases hf : (mapKeys (toByteSubscriptions mk sub)).foldlM
        (fun t fs => SNode.add t fs ((mapGet (toByteSubscriptions mk sub) fs).getD [])) t with
    | none =>
      rw [hf] at this
      refine ⟨fun _ => ?_, by simp⟩
      exact congrArg (Out.bind · _) this
    | some t1 =>
      rw [hf] at this
      obtain ⟨s', i1, i2⟩ := this
      refine ⟨by simp, fun t' ht => ?_⟩
      cases ht
      exact ⟨s', [], congrArg (Out.bind · _) i1, i2, by simp⟩
  | delete sub =>
    obtain ⟨N, hN⟩ := mem_delete_loop (mapKeys (toByteSubscriptions mk sub)) t
    refine ⟨N, fun n hn s hs => ?_⟩
    have := hN n hn s hs
    simp only [SNode.applyCall, SNode.deleteSubscription, SplayMem.call]
    cases hf : (mapKeys (toByteSubscriptions mk sub)).foldlM SNode.delete t with
    | none =>
      rw [hf] at this
      refine ⟨fun _ => ?_, by simp⟩
      exact congrArg (Out.bind · _) this
    | some t1 =>
      rw [hf] at this
      obtain ⟨s', i1, i2⟩ := this
      refine ⟨by simp, fun t' ht => ?_⟩
      cases ht
      exact ⟨s', [], congrArg (Out.bind · _) i1, i2, by simp⟩
  | search id =>
    refine ⟨t.count, fun n hn s ⟨d, hs, hd⟩ => ?_⟩
    obtain ⟨h, root⟩ := s
    dsimp only at hs hd
    simp only [SNode.applyCall, SplayMem.call]
    cases root with
    | none =>
      obtain ⟨rfl, -⟩ := holds_nil hs
      exact ⟨fun _ => rfl, by simp [SNode.search, SNode.splaySearch]⟩
    | some a =>
      have := splaySearchAt_refines id t true h (some a) a none d n hs hn (by simp) (by simp)
      simp only [SNode.search]
      cases hq : t.splaySearch true id with
      | none =>
        rw [hq] at this
        exact ⟨fun _ => congrArg (Out.bind · _) this, by simp⟩
      | some r =>
        obtain ⟨ms, rest, lifted⟩ := r
        rw [hq] at this
        obtain ⟨h', root', q, dr, dl, i1, i2, i3, -, i5, i6, i7, -, i9⟩ := this
        rw [i3 rfl] at i2
        obtain ⟨d', j1, j2⟩ := i5.attach i2 i6
        refine ⟨by simp, fun t' ht => ?_⟩
        simp only [Option.map_some, Option.some.injEq] at ht
        subst ht
        refine ⟨⟨h', root'⟩, ms, congrArg (Out.bind · _) i1, ⟨d', j1, fun x hx => ?_⟩, ?_⟩
        · have := hd x (i7 x (j2 x hx).symm)
          rw [← i9] at this
          exact this
        · intro id' hid
          cases hid
          simp [hq]

/-- C77: so does every history of calls. -/
theorem C77_history (mk : Encoder) (sub : Subs) (calls : List SplayCall) :
    ∃ t0 N, newSplay mk sub = some t0 ∧ ∀ n, N ≤ n → ∀ h, ∃ s0, newSplayMem mk n h sub = .ok s0 ∧
      (calls.foldlM (SNode.applyCall mk) t0 = none → s0.run mk n calls = .panic) ∧
      (∀ t, calls.foldlM (SNode.applyCall mk) t0 = some t → ∃ s, s0.run mk n calls =
        .ok (s, t0.results mk calls) ∧ IsTreeAt s.heap s.root t) := by
  have key : ∀ (calls : List SplayCall) (t : SNode), ∃ N, ∀ n, N ≤ n → ∀ s : SplayMem,
      IsTreeAt s.heap s.root t →
      (calls.foldlM (SNode.applyCall mk) t = none → s.run mk n calls = .panic) ∧
      (∀ t', calls.foldlM (SNode.applyCall mk) t = some t' → ∃ s', s.run mk n calls =
        .ok (s', t.results mk calls) ∧ IsTreeAt s'.heap s'.root t') := by
    intro calls
    induction calls with
    | nil =>
      intro t
      refine ⟨0, fun n _ s hs => ⟨by simp, fun t' ht => ?_⟩⟩
      simp at ht
      subst ht
      exact ⟨s, rfl, hs⟩
    | cons c calls ih =>
      intro t
      obtain ⟨N1, h1⟩ := C77_call mk t c
      cases hc : t.applyCall mk c with
      | none =>
        refine ⟨N1, fun n hn s hs => ⟨fun _ => ?_, fun t' ht => ?_⟩⟩
        · rw [SplayMem.run, (h1 n hn s hs).1 hc]; rfl
        · rw [List.foldlM_cons, hc] at ht; simp at ht
      | some t1 =>
        obtain ⟨N2, h2⟩ := ih t1
        refine ⟨N1 + N2, fun n hn s hs => ?_⟩
        obtain ⟨s1, ms, i1, i2, i3⟩ := (h1 n (by omega) s hs).2 t1 hc
        obtain ⟨j1, j2⟩ := h2 n (by omega) s1 i2
        rw [List.foldlM_cons, hc]
        simp only [Option.bind_eq_bind, Option.bind_some]
        have hms : ms = t.reported c := by
          cases c with
          | search id => simp [SNode.reported, i3 id rfl]
          | add sub =>
            simp only [SplayMem.call] at i1
            generalize Out.loop _ _ _ = o at i1
            cases o <;> simp [Out.bind] at i1
            simp [SNode.reported, i1.2.symm]
          | delete sub =>
            simp only [SplayMem.call] at i1
            generalize Out.loop _ _ _ = o at i1
            cases o <;> simp [Out.bind] at i1
            simp [SNode.reported, i1.2.symm]
        refine ⟨fun hn => ?_, fun t' ht => ?_⟩
        · rw [SplayMem.run, i1]
          simp only [Out.bind, j1 hn]
        · obtain ⟨s', k1, k2⟩ := j2 t' ht
          refine ⟨s', ?_, k2⟩
          rw [SplayMem.run, i1, SNode.results, hc]
          simp only [Out.bind, k1, ← hms]
  obtain ⟨t0, N1, h1, h2⟩ := C77_new mk sub
  obtain ⟨N2, h3⟩ := key calls t0
  refine ⟨t0, N1 + N2, h1, fun n hn h => ?_⟩
  obtain ⟨s0, i1, i2⟩ := h2 n (by omega) h
  exact ⟨s0, i1, h3 n (by omega) s0 i2⟩

/-- C77: in a tree in memory, paths are bounded and no two lead to the same node: there is no cycle
    and no sharing. -/
theorem C77_no_sharing (h : Mem) (p : Option Nat) (t : SNode) (ht : IsTreeAt h p t) (w : List Bool) (a : Nat)
    (hw : h.follow p w = some a) :
    w.length ≤ t.nodes.length ∧ ∀ w', h.follow p w' = some a → w' = w := by
  have mem : ∀ (t : SNode) (p : Option Nat) (d : List Nat) (w : List Bool), Holds h t p d →
      h.follow p w = some a → a ∈ d ∧ w.length < t.nodes.length := by
    intro t
    induction t with
    | nil =>
      rintro p d w ⟨rfl, rfl⟩ hw
      cases w <;> simp [Mem.follow] at hw
    | node u f m mm ih1 ih2 =>
      rintro p d w ⟨b, pm, pmm, dm, dmm, rfl, h1, h2, h3, rfl, -⟩ hw
      cases w with
      | nil =>
        simp [Mem.follow] at hw
        subst hw
        simp [SNode.nodes]
      | cons x w =>
        simp only [Mem.follow, h1] at hw
        cases x with
        | true =>
          obtain ⟨i1, i2⟩ := ih1 pm dm w h2 hw
          simp [SNode.nodes, i1]
          omega
        | false =>
          obtain ⟨i1, i2⟩ := ih2 pmm dmm w h3 hw
          simp [SNode.nodes, i1]
          omega
  have uniq : ∀ (t : SNode) (p : Option Nat) (d : List Nat) (w w' : List Bool), Holds h t p d →
      h.follow p w = some a → h.follow p w' = some a → w' = w := by
    intro t
    induction t with
    | nil =>
      rintro p d w w' ⟨rfl, rfl⟩ hw
      cases w <;> simp [Mem.follow] at hw
    | node u f m mm ih1 ih2 =>
      rintro p d w w' ⟨b, pm, pmm, dm, dmm, rfl, h1, h2, h3, rfl, h4, h5, h6⟩ hw hw'
      have side : ∀ x (v : List Bool), h.follow (some b) (x :: v) = some a →
          (x = true ∧ h.follow pm v = some a ∧ a ∈ dm) ∨ (x = false ∧ h.follow pmm v = some a ∧ a ∈ dmm) := by
        intro x v hv
        simp only [Mem.follow, h1] at hv
        cases x with
        | true => exact Or.inl ⟨rfl, hv, (mem m pm dm v h2 hv).1⟩
        | false => exact Or.inr ⟨rfl, hv, (mem mm pmm dmm v h3 hv).1⟩
      have top : ∀ v, h.follow (some b) v = some a → a = b → v = [] := by
        rintro v hv rfl
        cases v with
        | nil => rfl
        | cons x v =>
          rcases side x v hv with ⟨-, -, hx⟩ | ⟨-, -, hx⟩
          · exact absurd hx h4
          · exact absurd hx h5
      cases w with
      | nil =>
        simp [Mem.follow] at hw
        exact top w' hw' hw.symm
      | cons x w =>
        cases w' with
        | nil =>
          simp [Mem.follow] at hw'
          exact (top _ hw hw'.symm).symm
        | cons x' w' =>
          rcases side x w hw with ⟨rfl, k1, k2⟩ | ⟨rfl, k1, k2⟩
          · rcases side x' w' hw' with ⟨rfl, j1, j2⟩ | ⟨rfl, j1, j2⟩
            · rw [ih1 pm dm w w' h2 k1 j1]
            · exact absurd j2 (h6 a k2)
          · rcases side x' w' hw' with ⟨rfl, j1, j2⟩ | ⟨rfl, j1, j2⟩
            · exact absurd k2 (h6 a j2)
            · rw [ih2 pmm dmm w w' h3 k1 j1]
  obtain ⟨d, hd, -⟩ := ht
  exact ⟨Nat.le_of_lt (mem t p d w hd hw).2, fun w' hw' => uniq t p d w w' hd hw hw'⟩

/-- C77: what a search reports from memory after any history of good calls. -/
theorem C77_reports (mk : Encoder) (sub : Subs) (calls : List SplayCall)
    (hne : toByteSubscriptions mk sub ≠ [])
    (hbit : ∀ k u, (k, u) ∈ toByteSubscriptions mk sub → IsBitStr k)
    (hg : GoodSteps (fun k u => (k, u) ∈ toByteSubscriptions mk sub) (calls.flatMap (stepsOf mk)))
    (id : List Byte) (hid : LongEnough ((calls.flatMap (stepsOf mk)).foldl PairsAfter
      (fun k u => (k, u) ∈ toByteSubscriptions mk sub)) id) :
    ∃ N, ∀ n, N ≤ n → ∀ h, ∃ s0 s rs uris s', newSplayMem mk n h sub = .ok s0 ∧
      s0.run mk n calls = .ok (s, rs) ∧ s.call mk n (.search id) = .ok (s', uris) ∧
      ReportsFrom ((calls.flatMap (stepsOf mk)).foldl PairsAfter
        (fun k u => (k, u) ∈ toByteSubscriptions mk sub)) id uris := by
  obtain ⟨t0, t, uris, t', h1, h2, h3, h4⟩ :=
    C23_C25_C26_history mk sub calls hne hbit hg id hid.1 hid.2
  obtain ⟨t0', N1, g1, g2⟩ := C77_history mk sub calls
  rw [h1] at g1
  cases g1
  obtain ⟨N2, g3⟩ := C77_call mk t (.search id)
  refine ⟨N1 + N2, fun n hn h => ?_⟩
  obtain ⟨s0, i1, -, i3⟩ := g2 n (by omega) h
  obtain ⟨s, j1, j2⟩ := i3 t h2
  obtain ⟨s', ms, k1, -, k3⟩ := (g3 n (by omega) s j2).2 t' (by simp [SNode.applyCall, h3])
  have := k3 id rfl
  rw [h3] at this
  cases this
  exact ⟨s0, s, _, uris, s', i1, j1, k1, h4⟩

/-- the matches of a history run in an empty memory -/
def memMatches (mk : Encoder) (n : Nat) (sub : Subs) (calls : List SplayCall) : Option (List (List Str)) :=
  match newSplayMem mk n {} sub with
  | .ok s => match s.run mk n calls with
    | .ok (_, rs) => some rs
    | _ => none
  | _ => none

example : memMatches toyEncoder 12 toySub3
    [.search [0x30#8], .add [("http://c".toList, ["urn:epc:pat:s:0011000".toList])], .search [0x30#8],
      .delete [("http://a".toList, ["urn:epc:pat:s:0".toList])], .search [0x30#8]] =
    some [["http://a".toList, "http://b".toList], [], ["http://a".toList, "http://b".toList, "http://c".toList],
      [], ["http://b".toList, "http://c".toList]] := by decide +kernel

/-- a memory with the root at 0 and one child at 1 -/
def toyMem : Mem :=
  ((({} : Mem).leaf (newFilter "0".toList 0) "http://a".toList).1.leaf (newFilter "1".toList 1) "http://b".toList).1.upd 0
    fun c => { c with l := some 1 }

example : IsTreeAt toyMem (some 0) (.node "http://a".toList (some (newFilter "0".toList 0))
    (.node "http://b".toList (some (newFilter "1".toList 1)) .nil .nil) .nil) :=
  ⟨[0, 1], ⟨0, some 1, none, [1], [], rfl, rfl,
    ⟨1, none, none, [], [], rfl, rfl, ⟨rfl, rfl⟩, ⟨rfl, rfl⟩, rfl, by simp, by simp, by simp⟩,
    ⟨rfl, rfl⟩, rfl, by simp, by simp, by simp⟩, by decide⟩

example : toyMem.follow (some 0) [true] = some 1 := by decide

end Gosstrak
