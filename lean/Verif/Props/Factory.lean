import Verif.Proofs.FactoryCounts
import Verif.Proofs.FactoryProgress
import Verif.Proofs.FactoryHits
import Verif.Proofs.FactoryNotice

/-!
The engine factory under every schedule. `Reaches c sub w`: some execution from the start with
subscriptions `sub` ends in `w`. The hypotheses `c.floats.Lawful` and `[] ∉ c.names` hold of the
configuration in the code (`code_names`, `quotients_lawful` for exact arithmetic).
-/
namespace Gosstrak
open World
variable {F : Type} {c : Config F} {sub : Subs} {w w' : World F}

theorem quotients_lawful : quotients.Lawful where
  trans := by
    rintro ⟨a, b⟩ ⟨x, y⟩ ⟨p, q⟩ h1 h2
    simp only [quotients, decide_eq_true_eq] at *
    have hy : 0 < y := Nat.pos_of_ne_zero fun e => by simp [e] at h2
    have hb : 0 < b := Nat.pos_of_ne_zero fun e => by simp [e] at h1
    rcases Nat.eq_zero_or_pos q with rfl | hq
    · have hp : 0 < p := Nat.pos_of_ne_zero fun e => by simp [e] at h2
      simpa using Nat.mul_pos hp hb
    · have h3 : a * q * y < p * b * y := by
        calc a * q * y = a * y * q := Nat.mul_right_comm ..
          _ < x * b * q := Nat.mul_lt_mul_of_pos_right h1 hq
          _ = x * q * b := Nat.mul_right_comm ..
          _ ≤ p * y * b := Nat.mul_le_mul_right _ (Nat.le_of_lt h2)
          _ = p * b * y := Nat.mul_right_comm ..
      exact Nat.lt_of_mul_lt_mul_right h3
  irrefl a := by simp [quotients]
  div_nan := rfl
  div_zero d hd := by simp [quotients]
  div_pos n d hn := by simp [quotients]; omega
  div_num n d hn := by simp [quotients, hn]
  div_top n x hn := by simp [quotients]
  div_below n m d hn hd := by
    simp only [quotients, decide_eq_true_eq, Nat.mul_zero]
    exact Nat.mul_pos (Nat.pos_of_ne_zero hn) (Nat.pos_of_ne_zero hd)

theorem code_names (fl : Floats F) : [] ∉ (Config.code fl).names := by
  show [] ∉ codeNames
  decide +kernel

/-- exact arithmetic and the engines of the code -/
def exactCode : Config (Nat × Nat) := Config.code quotients

/-- an execution: the list engine is built, announced and selected -/
def listReady : List Label :=
  let n := "List".toList
  [.init n, .build n, .deploy n, .recvGenerated n, .listener, .listener, .listener, .listener, .mainRecv]

/-- the same for the trie -/
def trieReady : List Label :=
  let n := "PatriciaTrie".toList
  [.init n, .build n, .deploy n, .recvGenerated n, .listener, .listener, .listener, .listener, .listener,
    .mainRecv]

/-! ### C53 -/

theorem C53_usable (hf : c.floats.Lawful) (hn : [] ∉ c.names) (h : Reaches c sub w)
    (ha : w.isActive = true) : Usable c sub w w.current := by
  have hi := Inv.reaches hf hn h
  have hr := hi.current (by simpa [isActive] using ha)
  have := (hi.gens _).ready hr
  exact ⟨this.2, hr, this.1⟩

/-- neither a search nor the handling of an announcement finds a nil pointer -/
theorem C53_no_crash (hf : c.floats.Lawful) (hn : [] ∉ c.names) (h : Reaches c sub w) :
    w.crashed = false :=
  (Inv.reaches hf hn h).ok

/-- also every engine that is searched on the side is usable -/
theorem C53_searched (hf : c.floats.Lawful) (hn : [] ∉ c.names) (h : Reaches c sub w) {n : Str}
    (hs : w.searcher.inside = some n) : Usable c sub w n := by
  have hi := Inv.reaches hf hn h
  have hr : (w.gens n).fsm = .ready := by
    have := hi.searcher
    cases e : w.searcher <;> rw [e] at hs this <;> cases hs <;> exact this
  have := (hi.gens _).ready hr
  exact ⟨this.2, hr, this.1⟩

example : (run exactCode (start exactCode []) (listReady ++ trieReady)).map
    (fun w => (w.isActive, w.current)) = some (true, "PatriciaTrie".toList) := by decide +kernel

/-! ### C54 -/

theorem C54_permanent (hf : c.floats.Lawful) (hn : [] ∉ c.names) (h : Reaches c sub w)
    (ha : w.isActive = true) (ls : List Label) (hr : run c w ls = some w') : w'.isActive = true := by
  have := run_induct (c := c) (P := fun w => Inv c sub w ∧ w.current ≠ []) ?_ ls w w'
    ⟨Inv.reaches hf hn h, by simpa [isActive] using ha⟩ hr
  · simpa [isActive] using this.2
  · rintro w l w' ⟨hi, hc⟩ hs
    refine ⟨hi.step hf hn hs, ?_⟩
    rcases current_eq hs with e | ⟨-, e⟩ | ⟨-, e⟩
    · rw [e]; exact hc
    · have := hi.listener
      rw [e] at this
      exact hi.nonempty hn this
    · have := hi.selector
      rw [e] at this
      exact this.1

example : (run exactCode (start exactCode []) (listReady ++ [.tick exactCode.names, .selector])).map
    (fun w => w.isActive) = some true := by decide +kernel

/-! ### C55 -/

theorem C55_initial (hf : c.floats.Lawful) (hn : [] ∉ c.names) (hne : c.names ≠ [])
    (h : Reaches c sub w) (hq : ∀ n v, Msg.status n v ∉ w.sent)
    (hb : ∀ n ∈ c.names, (w.gens n).builder = .done) (hl : w.listener = .idle) :
    w.current ∈ c.names ∧ ∀ n ∈ c.names, c.priority n ≤ c.priority w.current := by
  have hI := Initial.reaches hf hn h hq
  have key : ∀ n ∈ c.names, w.current ≠ [] ∧ c.priority n ≤ c.priority w.current := fun n hm =>
    hI.announced n (hb n hm) (by rw [hl]; refine ⟨?_, ?_, ?_⟩ <;> simp)
  obtain ⟨n, hm⟩ := List.exists_mem_of_ne_nil _ hne
  have hi := Inv.reaches hf hn h
  exact ⟨((hi.gens _).ready (hi.current (key n hm).1)).2, fun n hm => (key n hm).2⟩

/-- with the priorities of the code -/
theorem C55_trie {fl : Floats F} (hf : fl.Lawful) (h : Reaches (Config.code fl) sub w)
    (hq : ∀ n v, Msg.status n v ∉ w.sent)
    (hb : ∀ n ∈ (Config.code fl).names, (w.gens n).builder = .done) (hl : w.listener = .idle) :
    w.current = "PatriciaTrie".toList := by
  obtain ⟨h1, h2⟩ := C55_initial (c := Config.code fl) hf (code_names fl)
    (show codeNames ≠ [] by decide +kernel) h hq hb hl
  have h3 : codePriority "PatriciaTrie".toList ≤ codePriority w.current :=
    h2 "PatriciaTrie".toList (show _ ∈ codeNames by decide +kernel)
  have all : ∀ n ∈ codeNames, codePriority "PatriciaTrie".toList ≤ codePriority n →
      n = "PatriciaTrie".toList := by decide +kernel
  exact all _ h1 h3

/-- in this order -/
def announceOrder : List Str :=
  ["PatriciaTrie".toList, "SplayTree".toList, "List".toList, "LegacyEngine".toList]

/-- While only some engines have been announced, the engine in use is one that comes at or before each
    of them in the order trie, splay tree, list, legacy engine. -/
theorem C55_order {fl : Floats F} (hf : fl.Lawful) (h : Reaches (Config.code fl) sub w)
    (hq : ∀ n v, Msg.status n v ∉ w.sent) (hl : w.listener = .idle) {n : Str}
    (hb : (w.gens n).builder = .done) :
    w.current ∈ announceOrder ∧ (w.gens w.current).fsm = .ready ∧
      announceOrder.idxOf w.current ≤ announceOrder.idxOf n := by
  have hI := Initial.reaches hf (code_names fl) h hq
  obtain ⟨h1, h2⟩ := hI.announced n hb (by rw [hl]; refine ⟨?_, ?_, ?_⟩ <;> simp)
  have hi := Inv.reaches hf (code_names fl) h
  have hr := hi.current h1
  have hm : w.current ∈ codeNames := ((hi.gens _).ready hr).2
  have hp : codePriority n ≤ codePriority w.current := h2
  have all : ∀ m ∈ codeNames, m ∈ announceOrder ∧ ∀ k ∈ codeNames, codePriority k ≤ codePriority m →
      announceOrder.idxOf m ≤ announceOrder.idxOf k := by decide +kernel
  refine ⟨(all _ hm).1, hr, ?_⟩
  by_cases hk : n ∈ codeNames
  · exact (all _ hm).2 n hk hp
  · have : n ∉ announceOrder := by
      intro hx
      have sub : ∀ k ∈ announceOrder, k ∈ codeNames := by decide +kernel
      exact hk (sub n hx)
    rw [List.idxOf_eq_length this]
    exact List.idxOf_le_length

/-- the list first, then the legacy engine, then the splay tree -/
example :
    let ready (n : Str) : List Label := [.init n, .build n, .deploy n, .recvGenerated n, .listener, .listener]
    let first := listReady ++ ready "LegacyEngine".toList
    (run exactCode (start exactCode []) first).map (fun w => decide (w.current = "List".toList ∧
      (w.gens "LegacyEngine".toList).builder = .done ∧ w.listener = .idle ∧ w.sent = [])) = some true ∧
    (run exactCode (start exactCode []) (first ++ ready "SplayTree".toList ++
      [.listener, .listener, .listener, .mainRecv])).map (fun w =>
        decide (w.current = "SplayTree".toList ∧ w.listener = .idle ∧ w.sent = [])) = some true := by
  decide +kernel

/-- all four engines are announced, the trie in the middle -/
def allReady : List Label :=
  let ready (n : Str) : List Label := [.init n, .build n, .deploy n, .recvGenerated n, .listener, .listener]
  listReady ++ trieReady ++ ready "SplayTree".toList ++ ready "LegacyEngine".toList

example : (run exactCode (start exactCode []) allReady).map
    (fun w => w.current = "PatriciaTrie".toList && (exactCode.names.all fun n => (w.gens n).builder = .done) &&
      w.listener = .idle && w.sent.isEmpty) = some true := by
  decide +kernel

/-! ### C56 -/

/-- a tick that is not disturbed: the new engine is a maximum of the throughputs, in any order of
    iteration; if none is positive nothing changes -/
theorem C56_undisturbed (hf : c.floats.Lawful) (hne : [] ∉ c.names) (h : w.crashed = false) (hi : w.selector = .idle)
    (order : List Str) (ho : order.Perm c.names) :
    ∃ k w', run c w (.tick order :: List.replicate k .selector) = some w' ∧
      w'.selector = .evalSelected ∧ w'.perf = w.perf ∧ w'.gens = w.gens ∧
      ((∃ n ∈ c.names, c.floats.lt c.floats.zero (w.perf n) = true) → w'.current ∈ c.names ∧
        ∀ n ∈ c.names, c.floats.lt (w.perf w'.current) (w.perf n) = false) ∧
      ((∀ n ∈ c.names, c.floats.lt c.floats.zero (w.perf n) = false) → w'.current = w.current) := by
  obtain ⟨b, v, hb, hr⟩ := range_alone (c := c) hf order
    { w with selector := .range order [] c.floats.zero [] } [] c.floats.zero [] h rfl
    (Or.inl ⟨rfl, rfl, by simp⟩)
  simp only [List.nil_append] at hb hr
  have h0 : run c w [.tick order] = some { w with selector := .range order [] c.floats.zero [] } := by
    simp [run, step, h, hi, List.isPerm_iff.mpr ho]
  have hstart : run c w (.tick order :: List.replicate (order.length + 1) .selector) =
      some { w with selector := .decide b v (order.map fun k => (k, w.perf k)) } := by
    rw [show Label.tick order :: List.replicate (order.length + 1) Label.selector =
      [.tick order] ++ List.replicate (order.length + 1) .selector from rfl, run_append, h0]
    exact hr
  by_cases hset : w.current ≠ b ∧ b.length ≠ 0
  · refine ⟨order.length + 3, { w with current := b, selector := .evalSelected }, ?_, rfl, rfl, rfl, ?_, ?_⟩
    · rw [show Label.tick order :: List.replicate (order.length + 3) Label.selector =
        (.tick order :: List.replicate (order.length + 1) .selector) ++ [.selector, .selector] by
          rw [show order.length + 3 = (order.length + 1) + 2 from rfl, ← List.replicate_append_replicate]; rfl,
        run_append, hstart]
      have hb0 : b ≠ [] := fun e => hset.2 (by rw [e]; rfl)
      simp [run, h, step, selectorStep, hset.1, hb0]
    · intro _
      rcases hb with ⟨rfl, -⟩ | ⟨h1, -, h2⟩
      · simp at hset
      obtain ⟨k, hk, e⟩ := List.mem_map.mp h1
      cases e
      refine ⟨ho.subset hk, fun n hn => ?_⟩
      exact h2 (n, w.perf n) (List.mem_map.mpr ⟨n, ho.symm.subset hn, rfl⟩)
    · intro hz
      rcases hb with ⟨rfl, -⟩ | ⟨h1, h2, -⟩
      · simp at hset
      obtain ⟨k, hk, e⟩ := List.mem_map.mp h1
      cases e
      rw [Pos, hz b (ho.subset hk)] at h2
      cases h2
  · refine ⟨order.length + 2, { w with selector := .evalSelected }, ?_, rfl, rfl, rfl, ?_, fun _ => rfl⟩
    · rw [show Label.tick order :: List.replicate (order.length + 2) Label.selector =
        (.tick order :: List.replicate (order.length + 1) .selector) ++ [.selector] by
          rw [show order.length + 2 = (order.length + 1) + 1 from rfl, ← List.replicate_append_replicate]; rfl,
        run_append, hstart]
      simp only [Option.bind_some, run, h, step, selectorStep, if_neg hset]
      rfl
    · rintro ⟨n, hn, hp⟩
      rcases hb with ⟨rfl, -, h1⟩ | ⟨h1, hv, h2⟩
      · rw [h1 (n, w.perf n) (List.mem_map.mpr ⟨n, ho.symm.subset hn, rfl⟩)] at hp
        cases hp
      obtain ⟨k, hk, e⟩ := List.mem_map.mp h1
      cases e
      have hk0 : b ≠ [] := fun e => hne (e ▸ ho.subset hk)
      have hcur : w.current = b := Classical.byContradiction fun e =>
        hset ⟨e, fun e0 => hk0 (List.length_eq_zero_iff.mp e0)⟩
      refine ⟨?_, fun n hn => ?_⟩
      · show w.current ∈ c.names
        rw [hcur]; exact ho.subset hk
      · show c.floats.lt (w.perf w.current) (w.perf n) = false
        rw [hcur]
        exact h2 (n, w.perf n) (List.mem_map.mpr ⟨n, ho.symm.subset hn, rfl⟩)

/-- a tick among other moves: when the selector replaces the engine, it has looked once at every
    engine, each at some moment since the tick, and the new engine had the maximum of these values -/
theorem C56_interleaved (hf : c.floats.Lawful) {w0 w1 w2 w3 : World F} {order : List Str}
    {ls : List Label} (h1 : step c w0 (.tick order) = some w1) (hls : ∀ o, .tick o ∉ ls)
    (h2 : run c w1 ls = some w2) (h3 : step c w2 .selector = some w3) (hc : w3.current ≠ w2.current) :
    ∃ (v : F) (seen : List (Str × F)), (seen.map Prod.fst).Perm c.names ∧
      (∀ p ∈ seen, ∃ ms u, ms <+: ls ∧ run c w1 ms = some u ∧ u.perf p.1 = p.2) ∧
      (w3.current, v) ∈ seen ∧ c.floats.lt c.floats.zero v = true ∧
      ∀ p ∈ seen, c.floats.lt v p.2 = false := by
  have hw1 : RangeInv c (fun u => u = w1) w1.selector := by
    simp only [step] at h1
    split at h1 <;> try cases h1
    split at h1 <;> cases h1
    rename_i ho
    exact ⟨Or.inl ⟨rfl, rfl, by simp⟩, by simpa using List.isPerm_iff.mp ho, by simp⟩
  have hr := RangeInv.run hf hw1 ls.length ls w2 rfl hls h2
  rcases current_eq h3 with e | ⟨e, -⟩ | ⟨-, e⟩
  · exact absurd e hc
  · cases e
  · rw [e] at hr
    obtain ⟨hne, v, seen, a1, a2, a3⟩ := hr
    rcases a1 with ⟨b1, -⟩ | ⟨b1, b2, b3⟩
    · exact absurd b1 hne
    · refine ⟨v, seen, a2, ?_, b1, b2, b3⟩
      intro p hp
      obtain ⟨u, ⟨ms, hm, hu⟩, hv⟩ := a3 p hp
      exact ⟨ms, u, hm, hu, hv⟩

/-- and it does replace the engine when it has seen a larger throughput elsewhere -/
theorem C56_replaces (hf : c.floats.Lawful) {w0 w1 w2 : World F} {order : List Str}
    {ls : List Label} (h1 : step c w0 (.tick order) = some w1) (hls : ∀ o, .tick o ∉ ls)
    (h2 : run c w1 ls = some w2) {b : Str} {v : F} {seen : List (Str × F)}
    (hd : w2.selector = .decide b v seen) (hne : [] ∉ c.names) :
    (seen.map Prod.fst).Perm c.names ∧
      ((∃ p ∈ seen, c.floats.lt c.floats.zero p.2 = true) → (b, v) ∈ seen ∧
        (∀ p ∈ seen, c.floats.lt v p.2 = false) ∧
        (w2.current ≠ b → step c w2 .selector = some { w2 with selector := .setCurrent b })) ∧
      ((∀ p ∈ seen, c.floats.lt c.floats.zero p.2 = false) →
        step c w2 .selector = some { w2 with selector := .evalSelected }) := by
  have hw1 : RangeInv c (fun u => u = w1) w1.selector := by
    simp only [step] at h1
    split at h1 <;> try cases h1
    split at h1 <;> cases h1
    rename_i ho
    exact ⟨Or.inl ⟨rfl, rfl, by simp⟩, by simpa using List.isPerm_iff.mp ho, by simp⟩
  have hr := RangeInv.run hf hw1 ls.length ls w2 rfl hls h2
  rw [hd] at hr
  obtain ⟨a1, a2, -⟩ := hr
  refine ⟨a2, ?_, ?_⟩
  · rintro ⟨p, hp, hpos⟩
    rcases a1 with ⟨-, -, b2⟩ | ⟨b1, b2, b3⟩
    · rw [b2 p hp] at hpos; cases hpos
    refine ⟨b1, b3, fun hcur => ?_⟩
    have hb : b ≠ [] := fun e => hne (a2.subset (List.mem_map.mpr ⟨(b, v), b1, e⟩))
    simp [step, selectorStep, hd, hcur, hb]
  · intro hz
    rcases a1 with ⟨rfl, -⟩ | ⟨b1, b2, -⟩
    · simp [step, selectorStep, hd]
    · have h0 : c.floats.lt c.floats.zero v = false := hz _ b1
      rw [show c.floats.lt c.floats.zero v = true from b2] at h0
      cases h0

/-- a search in the selected engine alone, taking `t` ns -/
def oneSearch (found : Bool) (t : Nat) : List Label :=
  [.search codeNames, .searchNext, .searchNext, .searchNext, .searchNext, .searchNext,
    .engineSearch found] ++ (if found then [.readMatched, .writeMatched] else []) ++ [.track t]

/-- a complete tick of the list engine when it has had events -/
def listTick : List Label :=
  let n := "List".toList
  [.genTick n, .recvTraffic n, .listener, .mainRecv, .genCompute n, .recvStatus n, .listener, .listener,
    .mainRecv, .genReset n]

/-- a measured engine beats the initial one: the trie has the highest priority, but only the list
    engine has been measured -/
example : (run exactCode (start exactCode []) (listReady ++ oneSearch true 5000 ++ listTick ++ trieReady ++
    .tick codeNames :: List.replicate 7 .selector)).map (fun w => (w.current, w.perf "List".toList)) =
    some ("List".toList, (1, 5)) := by decide +kernel

/-! ### C57 -/

/-- every event is in exactly one report, or not yet reported -/
theorem C57_events (hf : c.floats.Lawful) (h : Reaches c sub w) (n : Str) :
    ∃ intervals : List (List Nat), (w.gens n).all = intervals.flatten ++ (w.gens n).unreported ∧
      ((w.sent.filterMap (Msg.trafficOf n)).map Prod.fst) = intervals.map List.length :=
  let hi := CountInv.reaches hf h n
  ⟨(w.gens n).batches, hi.all, hi.counts⟩

/-- in numbers -/
theorem C57_count (hf : c.floats.Lawful) (h : Reaches c sub w) (n : Str) :
    ((w.sent.filterMap (Msg.trafficOf n)).map Prod.fst).sum + (w.gens n).unreported.length =
      (w.gens n).all.length := by
  have hi := CountInv.reaches hf h n
  rw [hi.counts, hi.all, List.length_append, List.length_flatten]

/-- the throughputs reported are those of the reported intervals with events, in order; a tick
    without events reports none -/
theorem C57_throughput (hf : c.floats.Lawful) (h : Reaches c sub w) (n : Str)
    (hm : (w.gens n).monitor = .waiting) :
    ∃ intervals : List (List Nat), (w.gens n).all = intervals.flatten ++ (w.gens n).batch ∧
      ((w.sent.filterMap (Msg.trafficOf n)).map Prod.fst) = intervals.map List.length ∧
      w.sent.filterMap (Msg.throughputOf n) =
        (intervals.filter (fun b => !b.isEmpty)).map (throughput c.floats) := by
  have hi := CountInv.reaches hf h n
  refine ⟨(w.gens n).batches, ?_, hi.counts, ?_⟩
  · have := hi.all
    rwa [Gen.unreported, hm] at this
  · have := hi.rates
    rwa [Gen.rated, hm] at this

example : (run exactCode (start exactCode []) (listReady ++ oneSearch true 5000 ++ oneSearch false 2999 ++
    listTick ++ oneSearch true 1000)).map (fun w => (w.sent, (w.gens "List".toList).all)) =
    some ([.traffic "List".toList 2 1, .status "List".toList (2, 7)], [5000, 2999, 1000]) := by
  decide +kernel

/-! ### C58 -/

/-- as long as ticks and searches of a generator do not overlap, a report is consistent -/
theorem C58_apart (h : ReachesApart c sub w) {n : Str} {e m : Nat} (hm : .traffic n e m ∈ w.sent) : m ≤ e :=
  (ReachesApart.matched h).sent n e m hm

/-- and every match is in exactly one report, or not yet reported -/
theorem C58_exact (h : ReachesApart c sub w) (n : Str) :
    reportedMatches n w.sent + (w.gens n).unreportedMatches + w.searcher.counting n = w.hits n :=
  ReachesApart.accounted h n

/-- two searches that found something, one that did not, reported, and another one -/
example : (run exactCode (start exactCode []) (listReady ++ oneSearch true 5000 ++ oneSearch false 2999 ++
    oneSearch true 1000 ++ listTick ++ oneSearch true 1000)).map (fun w =>
      (reportedMatches "List".toList w.sent, (w.gens "List".toList).unreportedMatches, w.hits "List".toList)) =
    some (2, 1, 3) := by
  decide +kernel

/-- otherwise the excess is unbounded: from every state in which the factory is active, for every
    ready engine, there are executions with a report of any number of matches in no events -/
theorem C58_unbounded (hf : c.floats.Lawful) (hn : [] ∉ c.names) (hcap : 0 < c.capacity)
    (h : Reaches c sub w) (ha : w.isActive = true) {n : Str} (hr : (w.gens n).fsm = .ready) (k : Nat) :
    ∃ ls w' m, run c w ls = some w' ∧ k ≤ m ∧ .traffic n 0 m ∈ w'.sent := by
  have hi := Inv.reaches hf hn h
  obtain ⟨w1, a1, a2, a3, a4, -⟩ := listener_rest hf hn hcap hi
  obtain ⟨w2, b1, b2, b3, b4, b5⟩ := search_finishes hf hn hcap a2
  obtain ⟨w3, d1, d2, d3, d4, -⟩ := monitor_waiting hf hn hcap b2 n
  have hl := (a1.trans b1).trans d1
  have hc : w3.current ≠ [] := by
    obtain ⟨ls, -, hl⟩ := hl
    simpa [isActive] using C54_permanent hf hn h ha ls hl
  obtain ⟨w4, m, e1, e2, e3⟩ := stale_report hf hn hcap n k d2 (d3.searcher.trans b3) hc
    (by rw [d3.fsm, b5, a3]; exact hr) d4
  obtain ⟨ls, hr⟩ := hl.may.trans e1
  exact ⟨ls, w4, m, hr, e2, e3⟩

/-- a match counted between the report and the reset is in no report -/
theorem C58_lost : ∃ (ls : List Label) (w : World (Nat × Nat)),
    run exactCode (start exactCode []) ls = some w ∧ ls.count (.engineSearch true) = 1 ∧
      w.searcher = .idle ∧ w.sent.filterMap (Msg.trafficOf "List".toList) = [(0, 0), (1, 0)] ∧
      (w.gens "List".toList).monitor = .waiting ∧ (w.gens "List".toList).matched = 0 := by
  let n := "List".toList
  let ls : List Label := listReady ++ [.search codeNames, .searchNext, .searchNext, .searchNext, .searchNext,
    .searchNext, .genTick n, .recvTraffic n, .listener, .mainRecv, .engineSearch true, .readMatched,
    .writeMatched, .genCompute n, .genReset n, .track 5000] ++ listTick
  have h : (run exactCode (start exactCode []) ls).isSome = true := by decide +kernel
  obtain ⟨w, hw⟩ := Option.isSome_iff_exists.mp h
  have e : (run exactCode (start exactCode []) ls).map (fun w => decide (w.searcher = .idle ∧
      w.sent.filterMap (Msg.trafficOf "List".toList) = [(0, 0), (1, 0)] ∧
      (w.gens "List".toList).monitor = .waiting ∧ (w.gens "List".toList).matched = 0)) = some true := by
    decide +kernel
  rw [hw] at e
  exact ⟨ls, w, hw, by decide +kernel, of_decide_eq_true (Option.some.inj e)⟩

/-! ### C59 -/

/-- the messages are taken from the channel, and that is all -/
theorem C59_ignored (hl : w.listener = .idle) {m : Msg F} {q : List (Msg F)} (hq : w.queue = m :: q)
    (hm : ∃ p u, m = .add p u ∨ m = .delete p u) :
    step c w .recvMain = some { w with queue := q } := by
  obtain ⟨p, u, rfl | rfl⟩ := hm <;> simp [step, hl, hq]

/-- in every execution, with any such messages, the engines are those of the initial subscriptions -/
theorem C59_unchanged (hf : c.floats.Lawful) (hn : [] ∉ c.names) (h : Reaches c sub w) :
    w.subs = sub ∧ ∀ n s, (w.gens n).engine = some s → s = sub :=
  let hi := Inv.reaches hf hn h
  ⟨hi.subs, fun n => (hi.gens n).engine⟩

example : (run exactCode (start exactCode [("01".toList, ["a".toList])]) (listReady ++
    [.manageAdd "10".toList "b".toList, .recvMain, .manageDelete "01".toList "a".toList, .recvMain])).map
    (fun w => w.subs = [("01".toList, ["a".toList])] && (w.gens "List".toList).engine = some w.subs &&
      w.queue.isEmpty) = some true := by decide +kernel

/-! ### C69 -/

/-- every report of a generator is at any time in exactly one place: received by the main program, in
    the channel, or in the hands of the listener -/
theorem C69_conserved (h : Reaches c sub w) :
    ((w.seen ++ w.queue ++ w.listener.hand).filter Msg.isReport).Perm w.sent :=
  (Conserved.reaches h).perm

/-- not so the notice of a new engine: the listener takes it from the channel it has just written to,
    and drops it -/
theorem C69_selected_lost : ∃ (ls : List Label) (w : World (Nat × Nat)),
    run exactCode (start exactCode []) ls = some w ∧ w.current = "List".toList ∧
      w.seen = [] ∧ w.queue = [] ∧ w.listener = .idle := by
  let ls : List Label := listReady.dropLast ++ [.recvMain]
  have h : (run exactCode (start exactCode []) ls).isSome = true := by decide +kernel
  obtain ⟨w, hw⟩ := Option.isSome_iff_exists.mp h
  have e : (run exactCode (start exactCode []) ls).map (fun w => decide (w.current = "List".toList ∧
      w.seen = [] ∧ w.queue = [] ∧ w.listener = .idle)) = some true := by
    decide +kernel
  rw [hw] at e
  exact ⟨ls, w, hw, of_decide_eq_true (Option.some.inj e)⟩

/-! ### C70 -/

/-- a stored throughput is zero or was reported by that engine -/
theorem C70_reported (h : Reaches c sub w) (n : Str) :
    w.perf n = c.floats.zero ∨ .status n (w.perf n) ∈ w.sent :=
  PerfSent.reaches h n

/-- but it may be an old one: the listener takes the first report from the channel again after it has
    stored the second -/
theorem C70_stale : ∃ (ls : List Label) (w : World (Nat × Nat)),
    run exactCode (start exactCode []) ls = some w ∧
      w.sent.filterMap (Msg.throughputOf "List".toList) = [(1, 9), (1, 2)] ∧
      w.perf "List".toList = (1, 9) ∧ w.listener = .idle ∧ (w.gens "List".toList).monitor = .waiting := by
  let n := "List".toList
  let ls : List Label := listReady ++ oneSearch false 9000 ++
    [.genTick n, .recvTraffic n, .listener, .mainRecv, .genCompute n, .recvStatus n, .listener, .listener,
      .genReset n] ++ oneSearch false 2000 ++
    [.genTick n, .recvTraffic n, .listener, .genCompute n, .recvStatus n, .listener, .listener,
      .genReset n] ++ [.recvMain, .listener, .listener]
  have h : (run exactCode (start exactCode []) ls).isSome = true := by decide +kernel
  obtain ⟨w, hw⟩ := Option.isSome_iff_exists.mp h
  have e : (run exactCode (start exactCode []) ls).map (fun w => decide (
      w.sent.filterMap (Msg.throughputOf "List".toList) = [(1, 9), (1, 2)] ∧
      w.perf "List".toList = (1, 9) ∧ w.listener = .idle ∧
      (w.gens "List".toList).monitor = .waiting)) = some true := by
    decide +kernel
  rw [hw] at e
  exact ⟨ls, w, hw, of_decide_eq_true (Option.some.inj e)⟩

/-! ### C71 -/

/-- an interval of events that all took less than a microsecond has infinite throughput -/
theorem C71_infinite (hf : c.floats.Lawful) {b : List Nat} (hb : b ≠ []) (h : ∀ t ∈ b, t < 1000) :
    (∀ x, c.floats.lt (throughput c.floats b) x = false) ∧
      ∀ b' : List Nat, (∃ t ∈ b', 1000 ≤ t) →
        c.floats.lt (throughput c.floats b') (throughput c.floats b) = true := by
  have hs : (b.map (· / 1000)).sum = 0 := by
    clear hb
    induction b with
    | nil => rfl
    | cons t b ih =>
      simp only [List.map_cons, List.sum_cons, Nat.div_eq_of_lt (h t List.mem_cons_self),
        ih fun x hx => h x (List.mem_cons_of_mem _ hx)]
  have hl : b.length ≠ 0 := fun e => hb (List.length_eq_zero_iff.mp e)
  rw [throughput, hs]
  refine ⟨fun x => hf.div_top _ _ hl, ?_⟩
  rintro b' ⟨t, ht, h1⟩
  refine hf.div_below _ _ _ hl ?_
  intro e
  have := List.sum_eq_zero_iff_forall_eq_nat.mp e (t / 1000) (List.mem_map.mpr ⟨t, ht, rfl⟩)
  omega

/-- and the engine is selected at the next tick, whatever slower measurements of the others say -/
theorem C71_selected (hf : c.floats.Lawful) (hne : [] ∉ c.names) (h : w.crashed = false)
    (hi : w.selector = .idle) (order : List Str) (ho : order.Perm c.names) {n : Str} (hm : n ∈ c.names)
    {b : List Nat} (hb : b ≠ []) (hfast : ∀ t ∈ b, t < 1000) (hp : w.perf n = throughput c.floats b)
    (hothers : ∀ k ∈ c.names, k ≠ n → ∃ b', (∃ t ∈ b', 1000 ≤ t) ∧ w.perf k = throughput c.floats b') :
    ∃ k w', run c w (.tick order :: List.replicate k .selector) = some w' ∧
      w'.selector = .evalSelected ∧ w'.current = n := by
  obtain ⟨k, w', h1, h2, -, -, h3, -⟩ := C56_undisturbed hf hne h hi order ho
  have hl : b.length ≠ 0 := fun e => hb (List.length_eq_zero_iff.mp e)
  obtain ⟨h4, h5⟩ := h3 ⟨n, hm, by rw [hp, throughput]; exact hf.div_pos _ _ hl⟩
  refine ⟨k, w', h1, h2, Classical.byContradiction fun hk => ?_⟩
  obtain ⟨b', hb', e⟩ := hothers _ h4 hk
  have := h5 n hm
  rw [e, hp, (C71_infinite hf hb hfast).2 b' hb'] at this
  cases this

example : (run exactCode (start exactCode []) (listReady ++ oneSearch false 999 ++ listTick)).map
    (fun w => w.sent) = some [.traffic "List".toList 1 0, .status "List".toList (1, 0)] := by decide +kernel

/-! ### C72 -/

/-- no deadlock: whatever has happened, a search under way can be completed, by moves of the program
    and without further searches, ticks or messages from outside -/
theorem C72_completes (hf : c.floats.Lawful) (hn : [] ∉ c.names) (hcap : 0 < c.capacity)
    (h : Reaches c sub w) :
    ∃ (ls : List Label) (w' : World F), (∀ l ∈ ls, l.internal = true) ∧ run c w ls = some w' ∧
      w'.searcher = .idle ∧ w'.listener = .idle ∧ w'.queue = [] := by
  have hi := Inv.reaches hf hn h
  obtain ⟨w1, a1, a2, a3, a4, -⟩ := listener_rest hf hn hcap hi
  obtain ⟨w2, b1, b2, b3, b4, b5⟩ := search_finishes hf hn hcap a2
  obtain ⟨ls, hl, hr⟩ := a1.trans b1
  exact ⟨ls, w2, hl, hr, b3, b2.listener, b2.queue⟩

/-- a search waits for the monitor, the monitor for the listener -/
example : (run exactCode (start exactCode []) (listReady ++ (oneSearch true 5000).dropLast ++
    [.genTick "List".toList])).map (fun w => decide (w.searcher = .track "List".toList none ∧
      (w.gens "List".toList).monitor = .sendTraffic 0 1)) = some true := by decide +kernel

/-! ### C76 -/

/-- a notice received by the main program names an engine that was selected at some moment before -/
theorem C76_notice {ls : List Label} (h : run c (start c sub) ls = some w) {n : Str}
    (hn : .selected n ∈ w.seen) : ∃ ms u, ms <+: ls ∧ run c (start c sub) ms = some u ∧ u.current = n :=
  (Noticed.run (c := c) (w0 := start c sub) ⟨by simp [start], by simp [start], by simp [start],
    by simp [start]⟩ ls.length ls w rfl h).seen n hn

/-- every undisturbed tick sends a notice naming the engine selected then -/
theorem C76_tick (hf : c.floats.Lawful) (hne : [] ∉ c.names) (h : w.crashed = false)
    (hi : w.selector = .idle) (hq : w.queue.length < c.capacity) (order : List Str)
    (ho : order.Perm c.names) :
    ∃ k w', run c w (.tick order :: List.replicate k .selector) = some w' ∧ w'.selector = .idle ∧
      w'.queue = w.queue ++ [.selected w'.current] := by
  obtain ⟨k, w', h1, h2, h3⟩ := C56_undisturbed hf hne h hi order ho
  have hk : ∀ (k : Nat) (u v : World F), u.crashed = false → u.selector ≠ .idle →
      (∀ m, u.selector ≠ .send m) →
      run c u (List.replicate k .selector) = some v → v.selector = .evalSelected →
      v.queue = u.queue ∧ v.crashed = false := by
    intro k
    induction k with
    | zero => intro u v hu _ _ hr _; cases hr; exact ⟨rfl, hu⟩
    | succ k ih =>
      intro u v hu hui hus hr hv
      rw [List.replicate_succ] at hr
      simp only [run, hu] at hr
      obtain ⟨u1, s1, s2⟩ := Option.bind_eq_some_iff.mp hr
      simp only [step, selectorStep] at s1
      split at s1
      case h_1 e => exact absurd e hui
      case h_2 => cases s1; (have := ih _ _ (by exact hu) (by simp) (by simp) s2 hv; exact this)
      case h_3 => split at s1 <;> cases s1 <;> (have := ih _ _ (by exact hu) (by simp) (by simp) s2 hv; exact this)
      case h_4 => split at s1 <;> cases s1 <;> (have := ih _ _ (by exact hu) (by simp) (by simp) s2 hv; exact this)
      case h_5 => cases s1; (have := ih _ _ (by exact hu) (by simp) (by simp) s2 hv; exact this)
      case h_6 =>
        cases s1
        -- the notice is under way and cannot become `evalSelected` again
        exfalso
        cases k with
        | zero => cases s2; cases hv
        | succ k =>
          rw [List.replicate_succ] at s2
          simp only [run, hu] at s2
          obtain ⟨u2, t1, t2⟩ := Option.bind_eq_some_iff.mp s2
          simp only [step, selectorStep] at t1
          obtain ⟨u3, t3, rfl⟩ := Option.map_eq_some_iff.mp t1
          cases k with
          | zero => cases t2; cases hv
          | succ k =>
            rw [List.replicate_succ] at t2
            have hu3 : u3.crashed = false := by rw [push_eq t3]
            simp [run, hu3, step, selectorStep] at t2
      case h_7 m e => exact absurd e (hus m)
  have h0 : run c w (.tick order :: List.replicate k .selector) =
      run c { w with selector := .range order [] c.floats.zero [] } (List.replicate k .selector) := by
    simp [run, step, h, hi, List.isPerm_iff.mpr ho]
  obtain ⟨e1, e2⟩ := hk k { w with selector := .range order [] c.floats.zero [] } w' h (by simp) (by simp)
    (h0 ▸ h1) h2
  refine ⟨k + 2, { w' with selector := .idle, queue := w'.queue ++ [.selected w'.current] }, ?_, rfl, ?_⟩
  · rw [← List.replicate_append_replicate, ← List.cons_append, run_append, h1]
    have e1' : w'.queue.length < c.capacity := by rw [e1]; exact hq
    simp [run, step, selectorStep, h2, e2, push, e1']
  · show w'.queue ++ _ = _
    rw [e1]

/-- the announcement of an engine that is the first or better than the selected one makes it the
    selected engine and sends a notice; any other one changes nothing -/
theorem C76_announced (h : w.crashed = false) (hl : w.listener = .idle) {n : Str}
    (hb : (w.gens n).builder = .announcing) (he : (w.gens n).engine ≠ none)
    (hq : w.queue.length < c.capacity) :
    ∃ k w', run c w (.recvGenerated n :: List.replicate k .listener) = some w' ∧ w'.listener = .idle ∧
      (w.current = [] ∨ c.priority w.current < c.priority n →
        w'.current = n ∧ w'.queue = w.queue ++ [.selected n]) ∧
      (w.current ≠ [] ∧ c.priority n ≤ c.priority w.current →
        w'.current = w.current ∧ w'.queue = w.queue) := by
  by_cases hc : w.current = []
  · refine ⟨4, { w.setGen n { w.gens n with builder := .done } with
      current := n, queue := w.queue ++ [.selected n], listener := .idle }, ?_, rfl, fun _ => ⟨rfl, rfl⟩,
      fun hx => absurd hc hx.1⟩
    simp [run, step, listenerStep, List.replicate, h, hl, hb, he, hc, setGen, upd_same, push, hq]
  by_cases hp : c.priority w.current < c.priority n
  · refine ⟨5, { w.setGen n { w.gens n with builder := .done } with
      current := n, queue := w.queue ++ [.selected n], listener := .idle }, ?_, rfl, fun _ => ⟨rfl, rfl⟩,
      fun hx => absurd hp (Nat.not_lt.mpr hx.2)⟩
    simp [run, step, listenerStep, List.replicate, h, hl, hb, he, hc, hp, setGen, upd_same, push, hq]
  · refine ⟨2, { w.setGen n { w.gens n with builder := .done } with listener := .idle }, ?_, rfl,
      fun hx => hx.elim (fun e => absurd e hc) (fun e => absurd e hp), fun _ => ⟨rfl, rfl⟩⟩
    simp [run, step, listenerStep, List.replicate, h, hl, hb, he, hc, hp, setGen, upd_same]

example : (run exactCode (start exactCode []) (listReady ++ trieReady ++
    .tick codeNames :: List.replicate 8 .selector ++ [.mainRecv])).map (fun w => w.seen) =
    some [.selected "List".toList, .selected "PatriciaTrie".toList, .selected "PatriciaTrie".toList] := by
  decide +kernel

end Gosstrak
