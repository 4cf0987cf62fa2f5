import Verif.Proofs.Factory

namespace Gosstrak
namespace World
variable {F : Type} {c : Config F} {sub : Subs} {w w' : World F} {l : Label}

/-- no report is lost or doubled on its way to the main program -/
structure Conserved (w : World F) : Prop where
  perm : ((w.seen ++ w.queue ++ w.listener.hand).filter Msg.isReport).Perm w.sent
  selector : ∀ m, w.selector = .send m → m.isReport = false

theorem Conserved.step (h : Conserved w) (hs : World.step c w l = some w') : Conserved w' := by
  have hp := h.perm
  cases l with
  | listener =>
    simp only [World.step, World.listenerStep] at hs
    split at hs
    case h_7 m e =>
      obtain ⟨w1, h1, rfl⟩ := Option.map_eq_some_iff.mp hs
      rw [push_eq h1]
      rw [e] at hp
      exact ⟨by simpa [Listener.hand] using hp, h.selector⟩
    all_goals rename_i e
    all_goals rw [e] at hp
    all_goals (repeat' split at hs) <;> cases hs <;>
      exact ⟨by simpa [Listener.hand, Msg.isReport, e] using hp, h.selector⟩
  | selector =>
    simp only [World.step, World.selectorStep] at hs
    split at hs
    case h_7 m e =>
      obtain ⟨w1, h1, rfl⟩ := Option.map_eq_some_iff.mp hs
      rw [push_eq h1]
      have := h.selector m e
      exact ⟨by simpa [List.filter_append, this] using hp, fun _ h => nomatch h⟩
    case h_6 e =>
      cases hs
      exact ⟨hp, fun m h => by cases h; rfl⟩
    all_goals (repeat' split at hs) <;> cases hs <;> exact ⟨hp, fun _ h => nomatch h⟩
  | manageAdd p u =>
    rw [push_eq (m := .add p u) hs]
    exact ⟨by simpa [List.filter_append, Msg.isReport] using hp, h.selector⟩
  | manageDelete p u =>
    rw [push_eq (m := .delete p u) hs]
    exact ⟨by simpa [List.filter_append, Msg.isReport] using hp, h.selector⟩
  | recvMain =>
    simp only [World.step] at hs
    split at hs <;> try cases hs
    rename_i m q e1 e2
    rw [e1, e2] at hp
    refine ⟨?_, ?_⟩
    · have hq : ((w.seen ++ q ++ [m]).filter Msg.isReport).Perm w.sent := by
        refine List.Perm.trans (List.Perm.filter _ ?_) hp
        simp only [Listener.hand, List.append_nil, List.append_assoc]
        exact List.Perm.append_left _ (List.perm_append_comm (l₁ := q) (l₂ := [m]))
      split at hs <;> cases hs <;> first | exact hq | (simpa [List.filter_append, Msg.isReport, e1, Listener.hand] using hq)
    · split at hs <;> cases hs <;> exact h.selector
  | recvTraffic n =>
    simp only [World.step] at hs
    split at hs <;> cases hs
    rename_i a b e1 e2
    rw [e1] at hp
    refine ⟨?_, h.selector⟩
    have := hp.append_right [Msg.traffic n a b]
    simpa [Listener.hand, Msg.isReport, World.setGen, List.filter] using this
  | recvStatus n =>
    simp only [World.step] at hs
    split at hs <;> cases hs
    rename_i a e1 e2
    rw [e1] at hp
    refine ⟨?_, h.selector⟩
    have := hp.append_right [Msg.status n a]
    simpa [Listener.hand, Msg.isReport, World.setGen, List.filter] using this
  | mainRecv =>
    simp only [World.step] at hs
    split at hs <;> cases hs
    rename_i m q e
    rw [e] at hp
    exact ⟨by simpa using hp, h.selector⟩
  | recvGenerated n =>
    simp only [World.step] at hs
    split at hs <;> cases hs
    rename_i e1 e2
    rw [e1] at hp
    exact ⟨by simpa [Listener.hand, World.setGen] using hp, h.selector⟩
  | tick order =>
    simp only [World.step] at hs
    (repeat' split at hs) <;> cases hs
    exact ⟨hp, fun _ h => nomatch h⟩
  | _ =>
    simp only [World.step] at hs
    (repeat' split at hs) <;> cases hs <;> exact ⟨hp, h.selector⟩

theorem Conserved.reaches (h : Reaches c sub w) : Conserved w := by
  obtain ⟨ls, hr⟩ := h
  refine run_induct (fun _ _ _ h1 h2 => Conserved.step h1 h2) ls _ _ ⟨?_, ?_⟩ hr
  · simp [World.start, Listener.hand]
  · intro m h; cases h

theorem Conserved.mem (h : Conserved w) {m : Msg F} (hm : m.isReport = true)
    (hin : m ∈ w.seen ++ w.queue ++ w.listener.hand) : m ∈ w.sent :=
  h.perm.subset (List.mem_filter.mpr ⟨hin, hm⟩)

theorem sent_mono (hs : World.step c w l = some w') : ∀ m ∈ w.sent, m ∈ w'.sent := by
  cases l with
  | listener =>
    simp only [World.step, World.listenerStep] at hs
    split at hs
    case h_7 m e =>
      obtain ⟨w1, h1, rfl⟩ := Option.map_eq_some_iff.mp hs
      rw [push_eq h1]; exact fun _ h => h
    all_goals (repeat' split at hs) <;> cases hs <;> exact fun _ h => h
  | selector =>
    simp only [World.step, World.selectorStep] at hs
    split at hs
    case h_7 m e =>
      obtain ⟨w1, h1, rfl⟩ := Option.map_eq_some_iff.mp hs
      rw [push_eq h1]; exact fun _ h => h
    all_goals (repeat' split at hs) <;> cases hs <;> exact fun _ h => h
  | manageAdd p u => rw [push_eq (m := .add p u) hs]; exact fun _ h => h
  | manageDelete p u => rw [push_eq (m := .delete p u) hs]; exact fun _ h => h
  | recvTraffic n =>
    simp only [World.step] at hs
    split at hs <;> cases hs
    exact fun _ h => List.mem_append_left _ h
  | recvStatus n =>
    simp only [World.step] at hs
    split at hs <;> cases hs
    exact fun _ h => List.mem_append_left _ h
  | _ =>
    simp only [World.step] at hs
    (repeat' split at hs) <;> cases hs <;> exact fun _ h => h

theorem perf_eq (hs : World.step c w l = some w') :
    w'.perf = w.perf ∨ ∃ n v, w.listener = .store n v ∧ w'.perf = upd w.perf n v ∧ w'.sent = w.sent := by
  cases l with
  | listener =>
    simp only [World.step, World.listenerStep] at hs
    split at hs
    case h_7 m e =>
      obtain ⟨w1, h1, rfl⟩ := Option.map_eq_some_iff.mp hs
      rw [push_eq h1]; exact Or.inl rfl
    case h_6 n v e => cases hs; exact Or.inr ⟨n, v, e, rfl, rfl⟩
    all_goals (repeat' split at hs) <;> cases hs <;> exact Or.inl rfl
  | selector =>
    simp only [World.step, World.selectorStep] at hs
    split at hs
    case h_7 m e =>
      obtain ⟨w1, h1, rfl⟩ := Option.map_eq_some_iff.mp hs
      rw [push_eq h1]; exact Or.inl rfl
    all_goals (repeat' split at hs) <;> cases hs <;> exact Or.inl rfl
  | manageAdd p u => rw [push_eq (m := .add p u) hs]; exact Or.inl rfl
  | manageDelete p u => rw [push_eq (m := .delete p u) hs]; exact Or.inl rfl
  | _ =>
    simp only [World.step] at hs
    (repeat' split at hs) <;> cases hs <;> exact Or.inl rfl

/-- every stored throughput is zero or has been reported -/
def PerfSent (c : Config F) (w : World F) : Prop :=
  ∀ n, w.perf n = c.floats.zero ∨ Msg.status n (w.perf n) ∈ w.sent

theorem PerfSent.step (h : Conserved w) (hp : PerfSent c w) (hs : World.step c w l = some w') :
    PerfSent c w' := by
  intro n
  rcases perf_eq hs with e | ⟨k, v, e1, e2, e3⟩
  · rw [e]
    exact (hp n).imp id (sent_mono hs _)
  · rw [e2, e3]
    by_cases e : n = k
    · subst e
      rw [upd_same]
      exact Or.inr (h.mem rfl (by rw [e1]; simp [Listener.hand]))
    · rw [upd_other _ _ e]
      exact hp n

theorem PerfSent.reaches (h : Reaches c sub w) : PerfSent c w := by
  obtain ⟨ls, hr⟩ := h
  have := run_induct (P := fun w => Conserved w ∧ PerfSent c w)
    (fun _ _ _ h1 h2 => ⟨h1.1.step h2, h1.2.step h1.1 h2⟩) ls _ _ ⟨Conserved.reaches ⟨[], rfl⟩, fun n => Or.inl rfl⟩ hr
  exact this.2

/-- no throughput has been reported -/
def Quiet (w : World F) : Prop := ∀ n v, Msg.status n v ∉ w.sent

theorem Quiet.back (hq : Quiet w') (hs : World.step c w l = some w') : Quiet w :=
  fun n v h => hq n v (sent_mono hs _ h)

theorem Quiet.perf (hf : c.floats.Lawful) (hp : PerfSent c w) (hq : Quiet w) (n : Str) :
    c.floats.lt c.floats.zero (w.perf n) = false := by
  rcases hp n with e | e
  · rw [e]; exact hf.irrefl _
  · exact absurd e (hq _ _)

/-- the selector found nothing yet -/
def SelectorQuiet (c : Config F) : Selector F → Prop
  | .range _ b v _ => b = [] ∧ v = c.floats.zero
  | .decide b _ _ => b = []
  | .setCurrent _ => False
  | _ => True

/-- the listener is not busy with the announcement of `n` -/
def Handled (x : Listener F) (n : Str) : Prop :=
  x ≠ .generated n ∧ x ≠ .compare n ∧ x ≠ .setCurrent n

structure Initial (c : Config F) (w : World F) : Prop where
  selector : SelectorQuiet c w.selector
  announced : ∀ n, (w.gens n).builder = .done → Handled w.listener n →
    w.current ≠ [] ∧ c.priority n ≤ c.priority w.current
  compare : ∀ n, w.listener = .compare n → w.current ≠ []
  setCurrent : ∀ n, w.listener = .setCurrent n → w.current = [] ∨ c.priority w.current < c.priority n

theorem Initial.same (h : Initial c w) (hsel : w'.selector = w.selector)
    (hcur : w'.current = w.current)
    (hb : ∀ n, (w'.gens n).builder = .done → (w.gens n).builder = .done)
    (hl : w'.listener = w.listener ∨ (w.listener = .idle ∧ ∀ n, Handled w'.listener n)) :
    Initial c w' := by
  obtain ⟨h1, h2, h3, h4⟩ := h
  rcases hl with e | ⟨e1, e2⟩
  · refine ⟨by rw [hsel]; exact h1, ?_, ?_, ?_⟩
    · intro n hn hd
      rw [hcur]
      exact h2 n (hb n hn) (by rwa [e] at hd)
    · rw [e, hcur]; exact h3
    · rw [e, hcur]; exact h4
  · refine ⟨by rw [hsel]; exact h1, ?_, ?_, ?_⟩
    · intro n hn hd
      rw [hcur]
      exact h2 n (hb n hn) (by rw [e1]; refine ⟨?_, ?_, ?_⟩ <;> simp)
    · exact fun n hn => absurd hn (e2 n).2.1
    · exact fun n hn => absurd hn (e2 n).2.2

theorem builder_upd {g : Gen F} {k : Str} (hg : g.builder = .done → (w.gens k).builder = .done) (n : Str)
    (h : (upd w.gens k g n).builder = .done) : (w.gens n).builder = .done := by
  by_cases e : n = k
  · subst e; rw [upd_same] at h; exact hg h
  · rwa [upd_other _ _ e] at h

theorem Initial.step (hf : c.floats.Lawful) (hn : [] ∉ c.names) (hi : Inv c sub w)
    (hp : PerfSent c w) (hq : Quiet w') (h : Quiet w → Initial c w)
    (hs : World.step c w l = some w') : Initial c w' := by
  have hqw := hq.back hs
  obtain ⟨h1, h2, h3, h4⟩ := h hqw
  cases l with
  | listener =>
    have hil := hi.listener
    simp only [World.step, World.listenerStep] at hs
    split at hs
    case h_1 => cases hs
    case h_2 n e =>
      rw [e] at hil
      have hr := ((hi.gens n).ready hil).1
      have ha : ∀ m, m ≠ n → Handled w.listener m := fun m hm => by
        rw [e]; refine ⟨?_, ?_, ?_⟩ <;> simp [Ne.symm hm]
      split at hs
      · rename_i e'; rw [hr] at e'; cases e'
      split at hs <;> cases hs
      · rename_i e2
        refine ⟨h1, ?_, by simp, ?_⟩
        · intro m hm hd
          refine h2 m hm (ha m ?_)
          rintro rfl; exact hd.2.2 rfl
        · intro m hm; exact Or.inl e2
      · rename_i e2
        refine ⟨h1, ?_, fun m hm => e2, by simp⟩
        intro m hm hd
        refine h2 m hm (ha m ?_)
        rintro rfl; exact hd.2.1 rfl
    case h_3 n e =>
      have ha : ∀ m, m ≠ n → Handled w.listener m := fun m hm => by
        rw [e]; refine ⟨?_, ?_, ?_⟩ <;> simp [Ne.symm hm]
      have hc := h3 n e
      split at hs <;> cases hs
      · rename_i e2
        refine ⟨h1, ?_, by simp, ?_⟩
        · intro m hm hd
          refine h2 m hm (ha m ?_)
          rintro rfl; exact hd.2.2 rfl
        · intro m hm; cases hm; exact Or.inr e2
      · rename_i e2
        refine ⟨h1, ?_, by simp, by simp⟩
        intro m hm hd
        by_cases em : m = n
        · subst em; exact ⟨hc, Nat.le_of_not_lt e2⟩
        · exact h2 m hm (ha m em)
    case h_4 n e =>
      rw [e] at hil
      have ha : ∀ m, m ≠ n → Handled w.listener m := fun m hm => by
        rw [e]; refine ⟨?_, ?_, ?_⟩ <;> simp [Ne.symm hm]
      cases hs
      refine ⟨h1, ?_, by simp, by simp⟩
      intro m hm hd
      refine ⟨hi.nonempty hn hil, ?_⟩
      show c.priority m ≤ c.priority n
      by_cases em : m = n
      · subst em; exact Nat.le_refl _
      · obtain ⟨g1, g2⟩ := h2 m hm (ha m em)
        rcases h4 n e with e1 | e1
        · exact absurd e1 g1
        · exact Nat.le_trans g2 (Nat.le_of_lt e1)
    case h_5 e =>
      cases hs
      exact ⟨h1, fun m hm _ => h2 m hm (by rw [e]; refine ⟨?_, ?_, ?_⟩ <;> simp), by simp, by simp⟩
    case h_6 n v e =>
      cases hs
      exact ⟨h1, fun m hm _ => h2 m hm (by rw [e]; refine ⟨?_, ?_, ?_⟩ <;> simp), by simp, by simp⟩
    case h_7 m e =>
      obtain ⟨w1, h5, rfl⟩ := Option.map_eq_some_iff.mp hs
      rw [push_eq h5]
      exact ⟨h1, fun m hm _ => h2 m hm (by rw [e]; refine ⟨?_, ?_, ?_⟩ <;> simp), by simp, by simp⟩
  | selector =>
    simp only [World.step, World.selectorStep] at hs
    split at hs
    case h_1 => cases hs
    case h_2 e =>
      rw [e] at h1
      cases hs
      exact ⟨h1.1, h2, h3, h4⟩
    case h_3 k rest best perf seen e =>
      rw [e] at h1
      split at hs <;> cases hs
      · rename_i e2
        rw [h1.2, hqw.perf hf hp] at e2
        cases e2
      · exact ⟨h1, h2, h3, h4⟩
    case h_4 best perf seen e =>
      rw [e] at h1
      split at hs <;> cases hs
      · rename_i e2
        simp [show best = [] from h1] at e2
      · exact ⟨trivial, h2, h3, h4⟩
    case h_5 e => rw [e] at h1; exact h1.elim
    case h_6 e => cases hs; exact ⟨trivial, h2, h3, h4⟩
    case h_7 m e =>
      obtain ⟨w1, h5, rfl⟩ := Option.map_eq_some_iff.mp hs
      rw [push_eq h5]
      exact ⟨trivial, h2, h3, h4⟩
  | manageAdd p u => rw [push_eq (m := .add p u) hs]; exact ⟨h1, h2, h3, h4⟩
  | manageDelete p u => rw [push_eq (m := .delete p u) hs]; exact ⟨h1, h2, h3, h4⟩
  | tick order =>
    simp only [World.step] at hs
    (repeat' split at hs) <;> cases hs
    exact ⟨⟨rfl, rfl⟩, h2, h3, h4⟩
  | recvGenerated n =>
    simp only [World.step] at hs
    split at hs <;> cases hs
    rename_i e1 e2
    refine ⟨h1, ?_, by simp, by simp⟩
    intro m hm hd
    have em : m ≠ n := by rintro rfl; exact hd.1 rfl
    simp only [World.setGen, upd_other _ _ em] at hm
    exact h2 m hm (by rw [e1]; refine ⟨?_, ?_, ?_⟩ <;> simp)
  | recvTraffic n =>
    simp only [World.step] at hs
    split at hs <;> cases hs
    rename_i e1 e2
    exact Initial.same ⟨h1, h2, h3, h4⟩ rfl rfl (builder_upd (by exact id))
      (Or.inr ⟨e1, fun n => by refine ⟨?_, ?_, ?_⟩ <;> simp⟩)
  | recvStatus n =>
    simp only [World.step] at hs
    split at hs <;> cases hs
    rename_i e1 e2
    exact Initial.same ⟨h1, h2, h3, h4⟩ rfl rfl (builder_upd (by exact id))
      (Or.inr ⟨e1, fun n => by refine ⟨?_, ?_, ?_⟩ <;> simp⟩)
  | recvMain =>
    simp only [World.step] at hs
    split at hs <;> try cases hs
    rename_i e1 e2
    split at hs <;> cases hs
    · exact Initial.same ⟨h1, h2, h3, h4⟩ rfl rfl (fun _ h => h)
        (Or.inr ⟨e1, fun n => by refine ⟨?_, ?_, ?_⟩ <;> simp⟩)
    · exact Initial.same ⟨h1, h2, h3, h4⟩ rfl rfl (fun _ h => h)
        (Or.inr ⟨e1, fun n => by refine ⟨?_, ?_, ?_⟩ <;> simp⟩)
    all_goals exact Initial.same ⟨h1, h2, h3, h4⟩ rfl rfl (fun _ h => h) (Or.inl rfl)
  | init n =>
    simp only [World.step] at hs
    split at hs <;> cases hs
    exact Initial.same ⟨h1, h2, h3, h4⟩ rfl rfl (builder_upd (fun h => nomatch h)) (Or.inl rfl)
  | build n =>
    simp only [World.step] at hs
    split at hs <;> cases hs
    exact Initial.same ⟨h1, h2, h3, h4⟩ rfl rfl (builder_upd (fun h => nomatch h)) (Or.inl rfl)
  | deploy n =>
    simp only [World.step] at hs
    split at hs <;> cases hs
    exact Initial.same ⟨h1, h2, h3, h4⟩ rfl rfl (builder_upd (fun h => nomatch h)) (Or.inl rfl)
  | _ =>
    simp only [World.step] at hs
    (repeat' split at hs) <;> cases hs <;>
      first
        | exact ⟨h1, h2, h3, h4⟩
        | exact Initial.same ⟨h1, h2, h3, h4⟩ rfl rfl (builder_upd (by exact id)) (Or.inl rfl)

theorem Initial.reaches (hf : c.floats.Lawful) (hn : [] ∉ c.names) (h : Reaches c sub w)
    (hq : Quiet w) : Initial c w := by
  obtain ⟨ls, hr⟩ := h
  have := run_induct (P := fun w => (Inv c sub w ∧ Conserved w ∧ PerfSent c w) ∧ (Quiet w → Initial c w))
    (fun _ _ _ h1 h2 => ⟨⟨h1.1.1.step hf hn h2, h1.1.2.1.step h2, h1.1.2.2.step h1.1.2.1 h2⟩,
      fun hq => Initial.step hf hn h1.1.1 h1.1.2.2 hq h1.2 h2⟩) ls _ _ ?_ hr
  · exact this.2 hq
  · refine ⟨⟨Inv.start hf, Conserved.reaches ⟨[], rfl⟩, fun n => Or.inl rfl⟩, fun _ => ?_⟩
    refine ⟨trivial, ?_, ?_, ?_⟩ <;> simp [World.start]

end World
end Gosstrak
