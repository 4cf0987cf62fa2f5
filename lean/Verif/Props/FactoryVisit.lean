import Verif.Proofs.FactoryVisit
import Verif.Props.Factory

/-! # C75: which engines a call of `Search` consults -/
namespace Gosstrak
open World
variable {F : Type} {c : Config F} {sub : Subs}

theorem order_of_search {w0 w1 : World F} {order : List Str} (h1 : step c w0 (.search order) = some w1) :
    order.Perm c.names ∧ w0.isActive = true := by
  simp only [step] at h1
  split at h1 <;> try cases h1
  split at h1 <;> cases h1
  rename_i h
  exact ⟨List.isPerm_iff.mp h.2, h.1⟩

/-- C75: while one call of `Search` is going on, with any other moves in between, every engine that is
    ready is searched exactly once and no other one, provided the selected engine does not change
    and none becomes ready meanwhile. -/
theorem C75_each_once (hf : c.floats.Lawful) (hne : [] ∉ c.names) (hnd : c.names.Nodup)
    {w0 w1 w2 : World F} {order : List Str} {ls : List Label} (h0 : Reaches c sub w0)
    (h1 : step c w0 (.search order) = some w1) (hls : ∀ o, .search o ∉ ls)
    (h2 : run c w1 ls = some w2) (hend : w2.searcher = .idle)
    (hq : ∀ ms u, ms <+: ls → run c w1 ms = some u →
      u.current = w0.current ∧ ∀ n, (u.gens n).fsm = (w0.gens n).fsm) :
    ∀ n ∈ c.names, (w2.gens n).all.length =
      (w0.gens n).all.length + if (w0.gens n).fsm = .ready then 1 else 0 := by
  obtain ⟨hp, ha⟩ := order_of_search h1
  have hready : (w0.gens w0.current).fsm = .ready := (C53_usable hf hne h0 ha).2.1
  have key := Progress.run (c := c) (order := order)
    (P := fun pre n j => j = if n ≠ w0.current ∧ (w0.gens n).fsm = .ready then pre.count n else 0)
    (final := fun _ n j => j = if n = w0.current then 1
      else if (w0.gens n).fsm = .ready then order.count n else 0)
    (side := fun k => k ≠ w0.current ∧ (w0.gens k).fsm = .ready) (last := fun k => k = w0.current)
    h1 (by simp) (fun u => u.current = w0.current ∧ ∀ n, (u.gens n).fsm = (w0.gens n).fsm)
    ?_ ?_ ?_ ?_ (fun w h => h.1) ls.length ls w2 rfl hls hq h2
  · obtain ⟨k1, k2⟩ := key
    rw [hend] at k2
    obtain ⟨_, _, k2⟩ := k2
    intro n hn
    have hc : order.count n = 1 := by
      rw [hp.count_eq]
      exact Nat.le_antisymm (List.nodup_iff_count.mp hnd n) (List.count_pos_iff.mpr hn)
    have a := k1 n
    have b := k2 n
    dsimp only at b
    rw [hc] at b
    by_cases e : n = w0.current
    · rw [e, if_pos rfl] at b
      rw [e] at a ⊢
      rw [if_pos hready]
      omega
    · rw [if_neg e] at b
      omega
  · rintro w ⟨t1, t2⟩ pre k n j hk rfl
    rw [t1, t2] at hk
    by_cases h : n ≠ w0.current ∧ (w0.gens n).fsm = .ready
    · rw [if_pos h, if_pos h, List.count_append, List.count_singleton, if_neg, Nat.add_zero]
      intro e
      rw [beq_iff_eq] at e
      subst e
      exact hk h
    · rw [if_neg h, if_neg h]
  · rintro pre k n j hk rfl
    by_cases e : n = k
    · subst e
      simp [hk]
    · by_cases h : n ≠ w0.current ∧ (w0.gens n).fsm = .ready
      · simp [h, e, Ne.symm e]
      · simp [h, e]
  · rintro k n j rfl rfl
    by_cases e : n = w0.current
    · simp [e]
    · simp [e]
  · rintro w ⟨t1, t2⟩ k a b
    rw [t1] at a; rw [t2] at b
    exact ⟨a, b⟩

/-- C75: in any case no engine is searched more than twice, and some engine that was selected during
    the call is. -/
theorem C75_at_most_twice (hnd : c.names.Nodup) {w0 w1 w2 : World F} {order : List Str} {ls : List Label}
    (h1 : step c w0 (.search order) = some w1) (hls : ∀ o, .search o ∉ ls)
    (h2 : run c w1 ls = some w2) (hend : w2.searcher = .idle) :
    (∀ n, (w0.gens n).all.length ≤ (w2.gens n).all.length ∧
      (w2.gens n).all.length ≤ (w0.gens n).all.length + 2) ∧
    ∃ ms u, ms <+: ls ∧ run c w1 ms = some u ∧
      (w0.gens u.current).all.length < (w2.gens u.current).all.length := by
  obtain ⟨hp, ha⟩ := order_of_search h1
  have key := Progress.run (c := c) (order := order)
    (P := fun pre n j => j ≤ pre.count n)
    (final := fun k n j => j ≤ order.count n + 1 ∧ (n = k → 1 ≤ j))
    (side := fun _ => True) (last := fun k => ∃ ms u, ms <+: ls ∧ run c w1 ms = some u ∧ u.current = k)
    h1 (by simp) (fun u => ∃ ms, ms <+: ls ∧ run c w1 ms = some u)
    ?_ ?_ ?_ (fun _ _ _ _ _ => trivial) (fun w ⟨ms, a, b⟩ => ⟨ms, w, a, b, rfl⟩)
    ls.length ls w2 rfl hls (fun ms u a b => ⟨ms, a, b⟩) h2
  · obtain ⟨k1, k2⟩ := key
    rw [hend] at k2
    obtain ⟨k, ⟨ms, u, a1, a2, rfl⟩, k2⟩ := k2
    refine ⟨fun n => ⟨k1 n, ?_⟩, ms, u, a1, a2, ?_⟩
    · have := (k2 n).1
      rw [hp.count_eq] at this
      have := List.nodup_iff_count.mp hnd n
      have := k1 n
      omega
    · have := (k2 u.current).2 rfl
      omega
  · intro w _ pre k n j _ hj
    rw [List.count_append]; omega
  · intro pre k n j _ hj
    by_cases e : n = k
    · subst e; simp; omega
    · simp [e, Ne.symm e, hj]
  · intro k n j _ hj
    by_cases e : n = k
    · simp [e] at *; omega
    · simp [e]; omega

/-- C75: if the selected engine is replaced meanwhile, one engine may be searched twice and the other
    not at all, although both are ready from the beginning. -/
theorem C75_twice : ∃ (pre ls : List Label) (w0 w1 w2 : World (Nat × Nat)),
    run exactCode (start exactCode []) pre = some w0 ∧
      (∀ n ∈ ["List".toList, "PatriciaTrie".toList], (w0.gens n).fsm = .ready) ∧
      step exactCode w0 (.search codeNames) = some w1 ∧ (∀ o, .search o ∉ ls) ∧
      run exactCode w1 ls = some w2 ∧ w2.searcher = .idle ∧
      (w2.gens "List".toList).all.length = (w0.gens "List".toList).all.length ∧
      (w2.gens "PatriciaTrie".toList).all.length = (w0.gens "PatriciaTrie".toList).all.length + 2 := by
  let t := "PatriciaTrie".toList
  let pre : List Label := listReady ++ [.init t, .build t, .deploy t]
  let ls : List Label := [.searchNext, .searchNext, .engineSearch false, .track 5000, .recvGenerated t,
    .listener, .listener, .listener, .searchNext, .searchNext, .searchNext, .engineSearch false, .track 4000]
  have h0 : (run exactCode (start exactCode []) pre).isSome = true := by decide +kernel
  obtain ⟨w0, hw0⟩ := Option.isSome_iff_exists.mp h0
  have h1 : ((run exactCode (start exactCode []) pre).bind fun w =>
    step exactCode w (.search codeNames)).isSome = true := by decide +kernel
  rw [hw0] at h1
  obtain ⟨w1, hw1⟩ := Option.isSome_iff_exists.mp h1
  have h2 : (((run exactCode (start exactCode []) pre).bind fun w =>
    step exactCode w (.search codeNames)).bind fun w => run exactCode w ls).isSome = true := by decide +kernel
  rw [hw0, Option.bind_some] at h2
  rw [Option.bind_some] at hw1
  rw [hw1] at h2
  obtain ⟨w2, hw2⟩ := Option.isSome_iff_exists.mp h2
  rw [Option.bind_some] at hw2
  have e : ((run exactCode (start exactCode []) pre).bind fun w0 =>
    (step exactCode w0 (.search codeNames)).bind fun w1 => (run exactCode w1 ls).map fun w2 =>
      decide ((∀ n ∈ ["List".toList, "PatriciaTrie".toList], (w0.gens n).fsm = .ready) ∧
      w2.searcher = .idle ∧
      (w2.gens "List".toList).all.length = (w0.gens "List".toList).all.length ∧
      (w2.gens "PatriciaTrie".toList).all.length = (w0.gens "PatriciaTrie".toList).all.length + 2)) =
      some true := by decide +kernel
  rw [hw0, Option.bind_some, hw1, Option.bind_some, hw2] at e
  obtain ⟨a, b⟩ := of_decide_eq_true (Option.some.inj e)
  exact ⟨pre, ls, w0, w1, w2, hw0, a, hw1, by simp [ls], hw2, b⟩

example : (codeNames).Nodup := by decide +kernel

/-- two ready engines, each searched once -/
example : ((run exactCode (start exactCode []) (listReady ++ trieReady)).bind fun w0 =>
    (step exactCode w0 (.search codeNames)).bind fun w1 =>
      (run exactCode w1 [.searchNext, .engineSearch false, .track 3000, .searchNext, .searchNext, .searchNext,
        .searchNext, .engineSearch false, .track 3000]).map fun w2 => decide (w2.searcher = .idle ∧
        (w2.gens "List".toList).all = [3000] ∧ (w2.gens "PatriciaTrie".toList).all = [3000] ∧
        (w2.gens "SplayTree".toList).all = [])) = some true := by decide +kernel

end Gosstrak
