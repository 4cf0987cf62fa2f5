import Verif.Proofs.FactorySelect

namespace Gosstrak
namespace World
variable {F : Type} {c : Config F} {sub : Subs} {w w' : World F} {l : Label}

/-- the moves of a search under way -/
def searching : Label → Bool
  | .searchNext | .engineSearch _ | .readMatched | .writeMatched | .track _ => true
  | _ => false

theorem upd_all {gens : Str → Gen F} {k : Str} {g : Gen F} (h : g.all = (gens k).all) (n : Str) :
    (upd gens k g n).all = (gens n).all := by
  unfold upd
  split
  · rename_i e; rw [e, h]
  · rfl

/-- the other moves do not touch what a search has done -/
theorem searcher_same (hs : step c w l = some w') (h1 : searching l = false) (h2 : ∀ o, l ≠ .search o) :
    w'.searcher = w.searcher ∧ ∀ n, (w'.gens n).all = (w.gens n).all := by
  cases l with
  | listener =>
    simp only [World.step, World.listenerStep] at hs
    split at hs
    case h_7 m e =>
      obtain ⟨w1, h1, rfl⟩ := Option.map_eq_some_iff.mp hs
      rw [push_eq h1]; exact ⟨rfl, fun _ => rfl⟩
    all_goals (repeat' split at hs) <;> cases hs <;> exact ⟨rfl, fun _ => rfl⟩
  | selector =>
    simp only [World.step, World.selectorStep] at hs
    split at hs
    case h_7 m e =>
      obtain ⟨w1, h1, rfl⟩ := Option.map_eq_some_iff.mp hs
      rw [push_eq h1]; exact ⟨rfl, fun _ => rfl⟩
    all_goals (repeat' split at hs) <;> cases hs <;> exact ⟨rfl, fun _ => rfl⟩
  | manageAdd p u => rw [push_eq (m := .add p u) hs]; exact ⟨rfl, fun _ => rfl⟩
  | manageDelete p u => rw [push_eq (m := .delete p u) hs]; exact ⟨rfl, fun _ => rfl⟩
  | search o => exact absurd rfl (h2 o)
  | searchNext => cases h1
  | engineSearch => cases h1
  | readMatched => cases h1
  | writeMatched => cases h1
  | track => cases h1
  | _ =>
    simp only [World.step] at hs
    (repeat' split at hs) <;> cases hs <;> refine ⟨rfl, fun n => ?_⟩ <;>
      first | rfl | exact upd_all (by rfl) n

/-- the generator being searched and where the search goes on -/
def place : Searcher → Option (Str × Option (List Str))
  | .call n r | .readMatched n r | .writeMatched n r _ | .track n r => some (n, r)
  | _ => none

/-- within one generator -/
theorem place_same (hs : step c w l = some w') (h1 : searching l = true) (h2 : l ≠ .searchNext)
    (h3 : ∀ t, l ≠ .track t) :
    place w'.searcher = place w.searcher ∧ (place w.searcher).isSome = true ∧
      ∀ n, (w'.gens n).all = (w.gens n).all := by
  cases l with
  | engineSearch b =>
    simp only [World.step] at hs
    split at hs <;> try cases hs
    rename_i e
    rw [e]
    (repeat' split at hs) <;> cases hs <;> refine ⟨?_, rfl, fun n => rfl⟩ <;> first | rfl | simp [e]
  | readMatched =>
    simp only [World.step] at hs
    split at hs <;> cases hs
    rename_i e
    rw [e]
    exact ⟨rfl, rfl, fun n => rfl⟩
  | writeMatched =>
    simp only [World.step] at hs
    split at hs <;> cases hs
    rename_i e
    rw [e]
    exact ⟨rfl, rfl, fun n => upd_all (by rfl) n⟩
  | searchNext => exact absurd rfl h2
  | track t => exact absurd rfl (h3 t)
  | _ => cases h1

/-- in a generator, after `count n` searches of each generator `n` -/
def Within (order : List Str) (P : List Str → Str → Nat → Prop) (side last : Str → Prop)
    (count : Str → Nat) : Str × Option (List Str) → Prop
  | (k, some rest) => ∃ pre, order = pre ++ k :: rest ∧ side k ∧ ∀ n, P pre n (count n)
  | (k, none) => last k ∧ ∀ n, P order n (count n)

/-- how far the search is that began in `w0` with `order`: `P pre n j` holds if `pre` have been
    visited and there were `j` searches of `n` -/
def Progress (w0 : World F) (order : List Str) (P : List Str → Str → Nat → Prop)
    (final : Str → Str → Nat → Prop) (side : Str → Prop) (last : Str → Prop) (w : World F) : Prop :=
  (∀ n, (w0.gens n).all.length ≤ (w.gens n).all.length) ∧
  match w.searcher with
  | .idle => ∃ k, last k ∧ ∀ n, final k n ((w.gens n).all.length - (w0.gens n).all.length)
  | .range rest => ∃ pre, order = pre ++ rest ∧
      ∀ n, P pre n ((w.gens n).all.length - (w0.gens n).all.length)
  | .call k r | .readMatched k r | .writeMatched k r _ | .track k r =>
    Within order P side last (fun n => (w.gens n).all.length - (w0.gens n).all.length) (k, r)

theorem Progress.of_place {w0 : World F} {order : List Str} {P final side last} {x}
    (h : place w.searcher = some x) : Progress w0 order P final side last w ↔
      (∀ n, (w0.gens n).all.length ≤ (w.gens n).all.length) ∧
      Within order P side last (fun n => (w.gens n).all.length - (w0.gens n).all.length) x := by
  unfold Progress
  cases e : w.searcher <;> rw [e] at h <;> cases h <;> rfl

theorem Progress.step {w0 : World F} {order : List Str} {P final side last}
    (hskip : ∀ pre k n j, ¬ (k ≠ w.current ∧ (w.gens k).fsm = .ready) → P pre n j → P (pre ++ [k]) n j)
    (hvisit : ∀ pre k n j, side k → P pre n j → P (pre ++ [k]) n (if n = k then j + 1 else j))
    (hfinal : ∀ k n j, last k → P order n j → final k n (if n = k then j + 1 else j))
    (hside : ∀ k, k ≠ w.current → (w.gens k).fsm = .ready → side k) (hlast : last w.current)
    (h : Progress w0 order P final side last w) (hs : step c w l = some w')
    (hl : ∀ o, l ≠ .search o) : Progress w0 order P final side last w' := by
  by_cases h1 : searching l = true
  · by_cases h2 : l = .searchNext
    · subst h2
      simp only [World.step] at hs
      unfold Progress at h
      split at hs <;> try cases hs
      · rename_i k rest e
        rw [e] at h
        obtain ⟨a0, pre, a1, a2⟩ := h
        split at hs <;> cases hs
        · rename_i hc
          exact ⟨a0, pre, a1, hside k hc.1 hc.2, a2⟩
        · rename_i hc
          exact ⟨a0, pre ++ [k], by simp [a1], fun n => hskip pre k n _ hc (a2 n)⟩
      · rename_i e
        rw [e] at h
        obtain ⟨a0, pre, a1, a2⟩ := h
        rw [List.append_nil] at a1
        subst a1
        split at hs <;> cases hs
        · exact ⟨a0, hlast, a2⟩
        · refine ⟨a0, ?_⟩
          dsimp only
          rw [e]
          exact ⟨order, by simp, a2⟩
    · by_cases h3 : ∃ t, l = .track t
      · obtain ⟨t, rfl⟩ := h3
        simp only [World.step] at hs
        split at hs <;> try cases hs
        rename_i k rest e
        split at hs <;> cases hs
        rw [Progress.of_place (x := (k, rest)) (by rw [e]; rfl)] at h
        obtain ⟨a0, h⟩ := h
        have hlen : ∀ n, (upd w.gens k { w.gens k with
            totalTime := (w.gens k).totalTime + t / 1000, events := (w.gens k).events + 1,
            all := (w.gens k).all ++ [t], batch := (w.gens k).batch ++ [t] } n).all.length =
            if n = k then (w.gens n).all.length + 1 else (w.gens n).all.length := by
          intro n
          unfold upd
          split
          · rename_i e; simp [e]
          · rfl
        have hsub : ∀ n, (if n = k then (w.gens n).all.length + 1 else (w.gens n).all.length) -
            (w0.gens n).all.length = if n = k then (w.gens n).all.length - (w0.gens n).all.length + 1
              else (w.gens n).all.length - (w0.gens n).all.length := by
          intro n
          have := a0 n
          split <;> omega
        have a0' : ∀ n, (w0.gens n).all.length ≤
            if n = k then (w.gens n).all.length + 1 else (w.gens n).all.length := by
          intro n
          have := a0 n
          split <;> omega
        cases rest with
        | some rest =>
          obtain ⟨pre, a1, a2, a3⟩ := h
          refine ⟨fun n => ?_, pre ++ [k], by simp [a1], fun n => ?_⟩
          · simp only [setGen, hlen]; exact a0' n
          · simp only [setGen, hlen, hsub]; exact hvisit pre k n _ a2 (a3 n)
        | none =>
          obtain ⟨a2, a3⟩ := h
          refine ⟨fun n => ?_, k, a2, fun n => ?_⟩
          · simp only [setGen, hlen]; exact a0' n
          · simp only [setGen, hlen, hsub]; exact hfinal k n _ a2 (a3 n)
      · obtain ⟨e1, e2, e3⟩ := place_same hs h1 h2 fun t e => h3 ⟨t, e⟩
        obtain ⟨x, hx⟩ := Option.isSome_iff_exists.mp e2
        rw [Progress.of_place hx] at h
        rw [Progress.of_place (e1.trans hx)]
        simpa only [e3] using h
  · obtain ⟨e1, e2⟩ := searcher_same hs (by simpa using h1) hl
    unfold Progress at *
    simpa only [e1, e2] using h

/-- one call of `Search`, from its beginning -/
theorem Progress.run {w0 w1 : World F} {order : List Str} {P final side last}
    (h1 : World.step c w0 (.search order) = some w1) (hnil : ∀ n, P [] n 0)
    (T : World F → Prop)
    (hskip : ∀ w, T w → ∀ pre k n j, ¬ (k ≠ w.current ∧ (w.gens k).fsm = .ready) → P pre n j → P (pre ++ [k]) n j)
    (hvisit : ∀ pre k n j, side k → P pre n j → P (pre ++ [k]) n (if n = k then j + 1 else j))
    (hfinal : ∀ k n j, last k → P order n j → final k n (if n = k then j + 1 else j))
    (hside : ∀ w, T w → ∀ k, k ≠ w.current → (w.gens k).fsm = .ready → side k)
    (hlast : ∀ w, T w → last w.current) :
    ∀ (i : Nat) (ls : List Label) (w : World F), ls.length = i → (∀ o, Label.search o ∉ ls) →
      (∀ ms u, ms <+: ls → World.run c w1 ms = some u → T u) →
      World.run c w1 ls = some w → Progress w0 order P final side last w := by
  intro i
  induction i with
  | zero =>
    intro ls w hn _ _ hr
    cases List.length_eq_zero_iff.mp hn
    cases hr
    simp only [World.step] at h1
    split at h1 <;> try cases h1
    split at h1 <;> cases h1
    exact ⟨fun n => Nat.le_refl _, [], rfl, fun n => by simpa using hnil n⟩
  | succ i ih =>
    intro ls w hn hq hT hr
    rcases List.eq_nil_or_concat ls with rfl | ⟨ms, l, rfl⟩
    · cases hn
    rw [List.concat_eq_append] at *
    obtain ⟨u, hu, -, hstep⟩ := run_snoc hr
    have hTu := hT ms u (List.prefix_append _ _) hu
    refine Progress.step (hskip u hTu) hvisit hfinal (hside u hTu) (hlast u hTu)
      (ih ms u (by simpa using hn) (fun o ho => hq o (List.mem_append_left _ ho))
        (fun q v hp => hT q v (hp.trans (List.prefix_append _ _))) hu) hstep ?_
    rintro o rfl
    exact hq o (by simp)

end World
end Gosstrak
