import Verif.Proofs.FactorySelect

namespace Gosstrak
namespace World
variable {F : Type} {c : Config F} {sub : Subs} {w w' : World F} {l : Label}

/-- all notices under way name engines in `S` -/
structure Noticed (S : Str → Prop) (w : World F) : Prop where
  seen : ∀ n, .selected n ∈ w.seen → S n
  queue : ∀ n, .selected n ∈ w.queue → S n
  listener : ∀ n, w.listener = .send (.selected n) → S n
  selector : ∀ n, w.selector = .send (.selected n) → S n

theorem Noticed.mono {S T : Str → Prop} (h : Noticed S w) (hST : ∀ n, S n → T n) : Noticed T w :=
  ⟨fun n a => hST n (h.seen n a), fun n a => hST n (h.queue n a), fun n a => hST n (h.listener n a),
    fun n a => hST n (h.selector n a)⟩

theorem Noticed.congr {S : Str → Prop} (h : Noticed S w) (h1 : w'.seen = w.seen) (h2 : w'.queue = w.queue)
    (h3 : w'.listener = w.listener) (h4 : w'.selector = w.selector) : Noticed S w' :=
  ⟨by rw [h1]; exact h.seen, by rw [h2]; exact h.queue, by rw [h3]; exact h.listener,
    by rw [h4]; exact h.selector⟩

theorem Noticed.push {S : Str → Prop} (h : Noticed S w) {m : Msg F} (hm : ∀ n, m = .selected n → S n)
    (hp : World.push c w m = some w') : Noticed S w' := by
  rw [push_eq hp]
  refine ⟨h.seen, ?_, h.listener, h.selector⟩
  intro n hn
  rcases List.mem_append.mp hn with hn | hn
  · exact h.queue n hn
  · exact hm n (List.mem_singleton.mp hn).symm

theorem Noticed.step {S : Str → Prop} (h : Noticed S w) (hc : S w.current)
    (hs : World.step c w l = some w') : Noticed S w' := by
  cases l with
  | listener =>
    simp only [World.step, World.listenerStep] at hs
    split at hs
    case h_1 => cases hs
    case h_2 =>
      (repeat' split at hs) <;> cases hs
      · exact h.congr rfl rfl rfl rfl
      · exact ⟨h.seen, h.queue, fun _ e => (nomatch e), h.selector⟩
      · exact ⟨h.seen, h.queue, fun _ e => (nomatch e), h.selector⟩
    case h_3 => split at hs <;> cases hs <;> exact ⟨h.seen, h.queue, fun _ e => (nomatch e), h.selector⟩
    case h_4 => cases hs; exact ⟨h.seen, h.queue, fun _ e => (nomatch e), h.selector⟩
    case h_5 => cases hs; exact ⟨h.seen, h.queue, fun n e => by cases e; exact hc, h.selector⟩
    case h_6 => cases hs; exact ⟨h.seen, h.queue, fun _ e => (nomatch e), h.selector⟩
    case h_7 m e =>
      obtain ⟨w1, h1, rfl⟩ := Option.map_eq_some_iff.mp hs
      have := h.push (fun n hn => h.listener n (by rw [e, hn])) h1
      exact ⟨this.seen, this.queue, fun _ e => (nomatch e), this.selector⟩
  | selector =>
    simp only [World.step, World.selectorStep] at hs
    split at hs
    case h_1 => cases hs
    case h_2 => cases hs; exact ⟨h.seen, h.queue, h.listener, fun _ e => (nomatch e)⟩
    case h_3 => split at hs <;> cases hs <;> exact ⟨h.seen, h.queue, h.listener, fun _ e => (nomatch e)⟩
    case h_4 => split at hs <;> cases hs <;> exact ⟨h.seen, h.queue, h.listener, fun _ e => (nomatch e)⟩
    case h_5 => cases hs; exact ⟨h.seen, h.queue, h.listener, fun _ e => (nomatch e)⟩
    case h_6 => cases hs; exact ⟨h.seen, h.queue, h.listener, fun n e => by cases e; exact hc⟩
    case h_7 m e =>
      obtain ⟨w1, h1, rfl⟩ := Option.map_eq_some_iff.mp hs
      have := h.push (fun n hn => h.selector n (by rw [e, hn])) h1
      exact ⟨this.seen, this.queue, this.listener, fun _ e => (nomatch e)⟩
  | manageAdd p u => exact h.push (m := .add p u) (fun _ e => (nomatch e)) hs
  | manageDelete p u => exact h.push (m := .delete p u) (fun _ e => (nomatch e)) hs
  | tick o =>
    simp only [World.step] at hs
    split at hs <;> try cases hs
    split at hs <;> cases hs
    exact ⟨h.seen, h.queue, h.listener, fun _ e => (nomatch e)⟩
  | recvGenerated k =>
    simp only [World.step] at hs
    split at hs <;> cases hs
    exact ⟨h.seen, h.queue, fun _ e => (nomatch e), h.selector⟩
  | recvTraffic k =>
    simp only [World.step] at hs
    split at hs <;> cases hs
    exact ⟨h.seen, h.queue, fun _ e => (nomatch e), h.selector⟩
  | recvStatus k =>
    simp only [World.step] at hs
    split at hs <;> cases hs
    exact ⟨h.seen, h.queue, fun _ e => (nomatch e), h.selector⟩
  | mainRecv =>
    simp only [World.step] at hs
    split at hs <;> cases hs
    rename_i m q e
    refine ⟨?_, fun n hn => h.queue n (by rw [e]; exact List.mem_cons_of_mem _ hn), h.listener, h.selector⟩
    intro n hn
    rcases List.mem_append.mp hn with hn | hn
    · exact h.seen n hn
    · exact h.queue n (by rw [e, List.mem_singleton.mp hn]; exact List.mem_cons_self)
  | recvMain =>
    simp only [World.step] at hs
    split at hs <;> try cases hs
    rename_i m q e1 e
    have hq : ∀ n, .selected n ∈ q → S n := fun n hn => h.queue n (by rw [e]; exact List.mem_cons_of_mem _ hn)
    split at hs <;> cases hs
    · exact ⟨h.seen, hq, fun _ e => (nomatch e), h.selector⟩
    · exact ⟨h.seen, hq, fun _ e => (nomatch e), h.selector⟩
    all_goals exact ⟨h.seen, hq, h.listener, h.selector⟩
  | _ =>
    simp only [World.step] at hs
    (repeat' split at hs) <;> cases hs <;> exact h.congr rfl rfl rfl rfl

theorem Noticed.run {w0 : World F} (h0 : Noticed (fun _ => False) w0) :
    ∀ (i : Nat) (ls : List Label) (w : World F), ls.length = i → World.run c w0 ls = some w →
      Noticed (fun n => ∃ ms u, ms <+: ls ∧ World.run c w0 ms = some u ∧ u.current = n) w := by
  intro i
  induction i with
  | zero =>
    intro ls w hn hr
    cases List.length_eq_zero_iff.mp hn
    cases hr
    exact h0.mono fun _ h => h.elim
  | succ i ih =>
    intro ls w hn hr
    rcases List.eq_nil_or_concat ls with rfl | ⟨ms, l, rfl⟩
    · cases hn
    rw [List.concat_eq_append] at *
    obtain ⟨u, hu, -, hstep⟩ := run_snoc hr
    refine Noticed.step ((ih ms u (by simpa using hn) hu).mono ?_) ?_ hstep
    · rintro n ⟨q, v, a, b, d⟩
      exact ⟨q, v, a.trans (List.prefix_append _ _), b, d⟩
    · exact ⟨ms, u, List.prefix_append _ _, hu, rfl⟩

end World
end Gosstrak
