import Verif.Proofs.FairRun

/-! Lemmas for C109: the message loop and the searching goroutine in such an execution. -/
namespace Gosstrak
open World
variable {F : Type} {env : FcEnv} {c : Config F} {tr : Translator} {sub : Subs} {E : Engines} {flag : Option Int}

theorem stage_idle {x : Searcher} : x.stage = .idle ↔ x = .idle := by
  cases x with
  | idle => exact ⟨fun _ => rfl, fun _ => rfl⟩
  | range rest => exact ⟨nofun, nofun⟩
  | call n rest => cases rest <;> exact ⟨nofun, nofun⟩
  | readMatched n rest => cases rest <;> exact ⟨nofun, nofun⟩
  | writeMatched n rest m => cases rest <;> exact ⟨nofun, nofun⟩
  | track n rest => cases rest <;> exact ⟨nofun, nofun⟩

theorem moved_fc (s : Prog F) (w : World F) : (s.moved w).fc.listener = s.fc.listener ∧
    (s.moved w).fc.done = s.fc.done ∧ (s.moved w).fc.main = s.fc.main ∧ (s.moved w).fc.pending = s.fc.pending := by
  unfold Prog.moved
  dsimp only
  split <;> exact ⟨rfl, rfl, rfl, rfl⟩

theorem fcAct_done (env : FcEnv) (s : Fc Engines) (a : LlrpAction) :
    (fcAct env s a).done = s.done ∧ (fcAct env s a).pending = s.pending := by
  cases a with
  | report body =>
    unfold fcAct
    dsimp only
    cases env.decode body <;> exact ⟨rfl, rfl⟩
  | _ => exact ⟨rfl, rfl⟩

/-- the search for a tag goes on, or returns -/
theorem tag_step {s t : Prog F} {l : ProgLabel} {b td : List ReadEvent} {e : ReadEvent}
    {r : List (Str × List Str)} (h : ProgStep env c tr s l t) (hl : s.fc.listener = .searching b (e :: td) r)
    (hc : t.world.crashed = false) :
    (t.fc.listener = s.fc.listener ∧ t.fc.done = s.fc.done ∧
      (s.world.searcher ≠ .idle → t.world.searcher ≠ .idle) ∧
      ((∃ o, l = .factory (.search o)) → t.world.searcher ≠ .idle)) ∨
    ∃ r', t.fc.listener = .searching b td r' ∧ t.fc.done = s.fc.done := by
  cases h with
  | fc ha hf =>
    left
    cases hf with
    | arrive => exact ⟨rfl, rfl, id, nofun⟩
    | eof => exact ⟨rfl, rfl, id, nofun⟩
    | read => exact ⟨(fcAct_same _ _ _).2, (fcAct_done _ _ _).1, id, nofun⟩
    | unknown => exact ⟨rfl, rfl, id, nofun⟩
    | hand _ _ hl' => rw [hl] at hl'; cases hl'
    | search _ _ ha => exact ha.elim
    | crash _ _ ha => exact ha.elim
    | finish _ hl' => rw [hl] at hl'; cases hl'
  | aside he hA hw =>
    left
    refine ⟨(moved_fc _ _).1, (moved_fc _ _).2.1, fun h h' => h ?_, ?_⟩
    · exact stage_idle.mp ((aside_stage hA hw).symm.trans (stage_idle.mpr h'))
    · rintro ⟨o, e⟩; cases e; exact hA.elim
  | call he hl' hw =>
    left
    refine ⟨(moved_fc _ _).1, (moved_fc _ _).2.1, ?_, ?_⟩ <;>
    · rintro -
      simp only [World.step] at hw
      (repeat' split at hw) <;> cases hw
      exact nofun
  | choose he hs hw =>
    left
    refine ⟨(moved_fc _ _).1, (moved_fc _ _).2.1, ?_, nofun⟩
    rintro -
    simp only [World.step, hs] at hw
    split at hw <;> cases hw
    · exact nofun
    · cases hc
  | engine he hl' hs hq hw =>
    left
    refine ⟨(moved_fc _ _).1, (moved_fc _ _).2.1, ?_, nofun⟩
    rintro -
    simp only [World.step, hs] at hw
    split at hw
    · cases hw; cases hc
    · split at hw <;> cases hw <;> exact nofun
  | panic => exact .inl ⟨rfl, rfl, id, nofun⟩
  | ret he hl' hs hq hw =>
    right
    rw [hl] at hl'
    cases hl'
    exact ⟨_, rfl, rfl⟩

/-- a batch whose tags have all been searched for waits to be finished -/
theorem finish_step {s t : Prog F} {l : ProgLabel} {b : List ReadEvent} {r : List (Str × List Str)}
    (h : ProgStep env c tr s l t) (hl : s.fc.listener = .searching b [] r) :
    (t.fc.listener = s.fc.listener ∧ t.fc.done = s.fc.done ∧ l ≠ .fc .finish) ∨
    (t.fc.listener = .waiting ∧ t.fc.done = s.fc.done ++ [(b, r)]) := by
  cases h with
  | fc ha hf =>
    cases hf with
    | arrive => exact .inl ⟨rfl, rfl, nofun⟩
    | eof => exact .inl ⟨rfl, rfl, nofun⟩
    | read => exact .inl ⟨(fcAct_same _ _ _).2, (fcAct_done _ _ _).1, nofun⟩
    | unknown => exact .inl ⟨rfl, rfl, nofun⟩
    | hand _ _ hl' => rw [hl] at hl'; cases hl'
    | search _ _ ha => exact ha.elim
    | crash _ _ ha => exact ha.elim
    | finish _ hl' => rw [hl] at hl'; cases hl'; exact .inr ⟨rfl, rfl⟩
  | aside => exact .inl ⟨(moved_fc _ _).1, (moved_fc _ _).2.1, nofun⟩
  | call => exact .inl ⟨(moved_fc _ _).1, (moved_fc _ _).2.1, nofun⟩
  | choose => exact .inl ⟨(moved_fc _ _).1, (moved_fc _ _).2.1, nofun⟩
  | engine => exact .inl ⟨(moved_fc _ _).1, (moved_fc _ _).2.1, nofun⟩
  | panic => exact .inl ⟨rfl, rfl, nofun⟩
  | ret he hl' => rw [hl] at hl'; cases hl'

/-- a batch waits to be handed over -/
theorem hand_step {s t : Prog F} {l : ProgLabel} {b : List ReadEvent} (h : ProgStep env c tr s l t)
    (hm : s.fc.main = .handing b) :
    (t.fc.main = s.fc.main ∧ l ≠ .fc .hand) ∨ (t.fc.main = .reading ∧ t.fc.listener = .searching b b []) := by
  cases h with
  | fc ha hf =>
    cases hf with
    | arrive => exact .inl ⟨rfl, nofun⟩
    | eof => exact .inl ⟨rfl, nofun⟩
    | read _ hm' => rw [hm] at hm'; cases hm'
    | unknown => exact .inl ⟨rfl, nofun⟩
    | hand _ hm' => rw [hm] at hm'; cases hm'; exact .inr ⟨rfl, rfl⟩
    | search _ _ ha => exact ha.elim
    | crash _ _ ha => exact ha.elim
    | finish => exact .inl ⟨rfl, nofun⟩
  | aside => exact .inl ⟨(moved_fc _ _).2.2.1, nofun⟩
  | call => exact .inl ⟨(moved_fc _ _).2.2.1, nofun⟩
  | choose => exact .inl ⟨(moved_fc _ _).2.2.1, nofun⟩
  | engine => exact .inl ⟨(moved_fc _ _).2.2.1, nofun⟩
  | panic => exact .inl ⟨rfl, nofun⟩
  | ret => exact .inl ⟨rfl, nofun⟩

/-- what a move does to the bytes that wait -/
theorem pending_step {s t : Prog F} {l : ProgLabel} (h : ProgStep env c tr s l t) (he : t.fc.ended = none) :
    (l = .fc .read ∧ t.fc.pending.length < s.fc.pending.length) ∨
    (l ≠ .fc .read ∧ t.fc.pending = s.fc.pending ++ arrivedIn (fcMoves [l]) ∧
      (s.fc.main = .reading → t.fc.main = .reading)) := by
  have moved : ∀ w k, (s.moved w).fc.pending = s.fc.pending ++ arrivedIn (fcMoves [.factory k]) := fun w k => by
    rw [(moved_fc s w).2.2.2]; exact (List.append_nil _).symm
  have main : ∀ w, s.fc.main = .reading → (s.moved w).fc.main = .reading := fun w h => by
    rw [(moved_fc s w).2.2.1]; exact h
  cases h with
  | fc ha hf =>
    cases hf with
    | arrive =>
      exact .inr ⟨nofun, by simp [fcMoves, arrivedIn], id⟩
    | eof => cases he
    | read _ _ hr =>
      refine .inl ⟨rfl, ?_⟩
      show (fcAct _ _ _).pending.length < _
      rw [(fcAct_done _ _ _).2]
      exact readMessage_shorter hr
    | unknown => cases he
    | hand => exact .inr ⟨nofun, (List.append_nil _).symm, fun _ => rfl⟩
    | search _ _ ha => exact ha.elim
    | crash _ _ ha => exact ha.elim
    | finish => exact .inr ⟨nofun, (List.append_nil _).symm, id⟩
  | aside => exact .inr ⟨nofun, moved _ _, main _⟩
  | call => exact .inr ⟨nofun, moved _ _, main _⟩
  | choose => exact .inr ⟨nofun, moved _ _, main _⟩
  | engine he' hl hs hq hw =>
    refine .inr ⟨nofun, ?_, ?_⟩
    · rw [(moved_fc _ _).2.2.2]; exact (List.append_nil _).symm
    · rw [(moved_fc _ _).2.2.1]; exact id
  | panic => cases he
  | ret => exact .inr ⟨nofun, (List.append_nil _).symm, id⟩

namespace Lasting
variable {s : Nat → Prog F} {l : Nat → Option ProgLabel}

/-- a search for a tag begins and returns -/
theorem tag (x : Lasting env c tr sub E flag s l) {b td : List ReadEvent} {e : ReadEvent}
    {r : List (Str × List Str)} {i : Nat} (h : (s i).fc.listener = .searching b (e :: td) r) :
    ∃ j, i ≤ j ∧ ∃ r', (s j).fc.listener = .searching b td r' ∧ (s j).fc.done = (s i).fc.done := by
  obtain ⟨i0, hact⟩ := x.active
  by_cases hq : ∃ j, i ≤ j ∧ ∃ r', (s j).fc.listener = .searching b td r' ∧ (s j).fc.done = (s i).fc.done
  · exact hq
  exfalso
  have stay : ∀ j, i ≤ j → (s j).fc.listener = .searching b (e :: td) r ∧ (s j).fc.done = (s i).fc.done →
      ((s (j + 1)).fc.listener = .searching b (e :: td) r ∧ (s (j + 1)).fc.done = (s i).fc.done) ∧
      ((s j).world.searcher ≠ .idle → (s (j + 1)).world.searcher ≠ .idle) ∧
      ((∃ o, l j = some (.factory (.search o))) → (s (j + 1)).world.searcher ≠ .idle) := by
    intro j hj ⟨h1, h2⟩
    rcases x.moves j with ⟨a, e'⟩ | ⟨k, a, e'⟩
    · rw [e']
      exact ⟨⟨h1, h2⟩, id, fun ⟨o, h⟩ => by rw [a] at h; cases h⟩
    · rcases tag_step e' h1 (x.inv (j + 1)).ok with ⟨g1, g2, g3, g4⟩ | ⟨r', g1, g2⟩
      · refine ⟨⟨g1.trans h1, g2.trans h2⟩, g3, fun ⟨o, h⟩ => g4 ⟨o, ?_⟩⟩
        rw [a] at h; cases h; rfl
      · exact absurd ⟨j + 1, by omega, r', g1, g2.trans h2⟩ hq
  have hp : ∀ d, (s (i + d)).fc.listener = .searching b (e :: td) r ∧ (s (i + d)).fc.done = (s i).fc.done := by
    intro d
    induction d with
    | zero => exact ⟨h, rfl⟩
    | succ d ih => exact (stay _ (by omega) ih).1
  have hp : ∀ j, i ≤ j → (s j).fc.listener = .searching b (e :: td) r ∧ (s j).fc.done = (s i).fc.done :=
    fun j hj => by
      have := hp (j - i)
      rwa [Nat.add_sub_cancel' hj] at this
  obtain ⟨j, h1, m, h2, h3⟩ := x.fair (.factory (.search [])) (.inr ⟨_, rfl⟩) (by nofun) (fun j => by
    obtain ⟨j', a1, a2⟩ := x.returns (max j (max i i0))
    have b1 : j ≤ j' ∧ i ≤ j' ∧ i0 ≤ j' := by omega
    refine ⟨j', b1.1, .factory (.search c.names), _, rfl, ProgStep.call (x.running j') (hp j' b1.2.1).1
      (w := { (s j').world with searcher := .range c.names }) ?_⟩
    simp only [World.step, a2]
    rw [if_pos ⟨hact j' b1.2.2, List.isPerm_iff.mpr (.refl _)⟩]) i
  have hm : ∃ o, m = .factory (.search o) := by
    cases m with
    | fc => cases h3
    | panic => cases h3
    | factory k => cases k <;> first | exact ⟨_, rfl⟩ | cases h3
  obtain ⟨o, rfl⟩ := hm
  have busy : ∀ d, (s (j + 1 + d)).world.searcher ≠ .idle := by
    intro d
    induction d with
    | zero => exact (stay j h1 (hp j h1)).2.2 ⟨o, h2⟩
    | succ d ih => exact (stay (j + 1 + d) (by omega) (hp _ (by omega))).2.1 ih
  obtain ⟨j', h4, h5⟩ := x.returns (j + 1)
  obtain ⟨d, rfl⟩ := Nat.exists_eq_add_of_le h4
  exact busy d h5

/-- a batch that is being searched is done -/
theorem done (x : Lasting env c tr sub E flag s l) {b td : List ReadEvent} {r : List (Str × List Str)} {i : Nat}
    (h : (s i).fc.listener = .searching b td r) :
    ∃ j, i ≤ j ∧ (s j).fc.listener = .waiting ∧ ∃ r', (s j).fc.done = (s i).fc.done ++ [(b, r')] := by
  obtain ⟨i0, hact⟩ := x.active
  induction td generalizing r i with
  | nil =>
    obtain ⟨j, h1, h2, h3⟩ := x.leads (P := fun j => (s j).fc.listener = .searching b [] r ∧
        (s j).fc.done = (s i).fc.done)
      (Q := fun j => (s j).fc.listener = .waiting ∧ (s j).fc.done = (s i).fc.done ++ [(b, r)])
      (.fc .finish) trivial (by nofun) (fun j hP => by
        rcases x.moves j with ⟨a, e'⟩ | ⟨k, a, e'⟩
        · left; rw [e']; exact hP
        · rcases finish_step e' hP.1 with ⟨g1, g2, -⟩ | ⟨g1, g2⟩
          · exact .inl ⟨g1.trans hP.1, g2.trans hP.2⟩
          · exact .inr ⟨g1, by rw [g2, hP.2]⟩)
      (fun j m hP e hm => by
        have := kind_fc hm
        subst this
        rcases x.moves j with ⟨a, e'⟩ | ⟨k, a, e'⟩
        · rw [e] at a; cases a
        · rw [e] at a; cases a
          rcases finish_step e' hP.1 with ⟨-, -, g⟩ | ⟨g1, g2⟩
          · exact absurd rfl g
          · exact ⟨g1, by rw [g2, hP.2]⟩)
      (fun j hP => ⟨max j i0, Nat.le_max_left _ _, fun hP' => .inl ⟨.fc .finish, _, rfl,
        .fc (hact _ (Nat.le_max_right _ _)) (.finish (x.running _) hP'.1)⟩⟩) i ⟨h, rfl⟩
    exact ⟨j, h1, h2, r, h3⟩
  | cons e td ih =>
    obtain ⟨j, h1, r1, h2, h3⟩ := x.tag h
    obtain ⟨j', h4, h5, r2, h6⟩ := ih h2
    exact ⟨j', by omega, h5, r2, by rw [h6, h3]⟩

/-- a batch that waits to be handed over is -/
theorem handed (x : Lasting env c tr sub E flag s l) {b : List ReadEvent} {i : Nat}
    (h : (s i).fc.main = .handing b) :
    ∃ j, i ≤ j ∧ (s j).fc.main = .reading ∧ (s j).fc.listener = .searching b b [] := by
  obtain ⟨i0, hact⟩ := x.active
  refine x.leads (P := fun j => (s j).fc.main = .handing b)
      (Q := fun j => (s j).fc.main = .reading ∧ (s j).fc.listener = .searching b b [])
      (.fc .hand) trivial (by nofun) (fun j hP => by
        rcases x.moves j with ⟨a, e'⟩ | ⟨k, a, e'⟩
        · left; rw [e']; exact hP
        · exact (hand_step e' hP).imp (fun h => h.1.trans hP) id)
      (fun j m hP e hm => by
        have := kind_fc hm
        subst this
        rcases x.moves j with ⟨a, e'⟩ | ⟨k, a, e'⟩
        · rw [e] at a; cases a
        · rw [e] at a; cases a
          exact (hand_step e' hP).resolve_left fun h => h.2 rfl)
      (fun j hP => ?_) i h
  have wait : ∃ j', max j i0 ≤ j' ∧ (s j').fc.listener = .waiting := by
    cases e : (s (max j i0)).fc.listener with
    | waiting => exact ⟨_, Nat.le_refl _, e⟩
    | searching b t r =>
      obtain ⟨j', h1, h2, -⟩ := x.done e
      exact ⟨j', h1, h2⟩
  obtain ⟨j', h1, h2⟩ := wait
  exact ⟨j', by omega, fun hP' => .inl ⟨.fc .hand, _, rfl, .fc (hact _ (by omega)) (.hand (x.running _) hP' h2)⟩⟩

/-- the bytes that have come -/
def arr (l : Nat → Option ProgLabel) (i : Nat) : List Byte := arrivedIn (fcMoves ((List.range i).filterMap l))

theorem arr_succ (l : Nat → Option ProgLabel) (i : Nat) :
    arr l (i + 1) = arr l i ++ arrivedIn (fcMoves (l i).toList) := by
  unfold arr
  rw [List.range_succ, List.filterMap_append, fcMoves_append, arrivedIn_append]
  congr 3

theorem arr_prefix (l : Nat → Option ProgLabel) {i j : Nat} (h : i ≤ j) : arr l i <+: arr l j := by
  obtain ⟨d, rfl⟩ := Nat.exists_eq_add_of_le h
  exact prefix_chain (arr l) (fun i => by rw [arr_succ]; exact List.prefix_append _ _) i d

/-- what the bytes read say of the state -/
theorem read (x : Lasting env c tr sub E flag s l) (i : Nat) : ∃ used, arr l i = used ++ (s i).fc.pending ∧
    (∀ rest, llrpLoop env.headers (used ++ rest) = ((llrpLoop env.headers used).1 ++
      (llrpLoop env.headers rest).1, (llrpLoop env.headers rest).2)) ∧
    (s i).fc.written = repliesTo 0#32 (llrpLoop env.headers used).1 ∧
    (s i).fc.batches.map some = (reportBodies (llrpLoop env.headers used).1).map env.decode := by
  obtain ⟨fl, E0, h1, h2, -, -⟩ := prog_refines x.floats x.noname (P := fun _ => True) ⟨.list, trivial⟩ (x.run i)
    fun _ _ => trivial
  obtain ⟨as, hi⟩ := fcInv_run h1
  obtain ⟨used, g1, g2⟩ := hi.consumed
  have e : (llrpLoop env.headers used).1 = as := by
    have := g2 []
    rw [List.append_nil] at this
    rw [this, llrpLoop_none (by decide)]
    exact List.append_nil _
  refine ⟨used, by rw [← g1, h2]; rfl, fun rest => by rw [e]; exact g2 rest, by rw [e]; exact hi.written, ?_⟩
  rw [e]
  exact hi.all (by show (s i).fc.ended ≠ _; rw [x.running i]; nofun)

/-- how far the bytes that have come are from those that wait -/
theorem used_mono (x : Lasting env c tr sub E flag s l) {i j : Nat} (h : i ≤ j) :
    (arr l i).length + (s j).fc.pending.length ≤ (arr l j).length + (s i).fc.pending.length := by
  obtain ⟨d, rfl⟩ := Nat.exists_eq_add_of_le h
  clear h
  induction d with
  | zero => exact Nat.le_refl _
  | succ d ih =>
    show _ + (s (i + d + 1)).fc.pending.length ≤ (arr l (i + d + 1)).length + _
    rw [arr_succ]
    rcases x.moves (i + d) with ⟨a, e⟩ | ⟨k, a, e⟩
    · rw [e]; simp only [List.length_append]; omega
    · rw [a]
      rcases pending_step e (x.running _) with ⟨rfl, g⟩ | ⟨-, g, -⟩
      · simp only [List.length_append]; omega
      · rw [g]; simp only [List.length_append, Option.toList]; omega

/-- a message that is there whole is read -/
theorem progress (x : Lasting env c tr sub E flag s l) {i : Nat} {q} (h : readMessage (s i).fc.pending = some q) :
    ∃ j, i ≤ j ∧ (arr l i).length + (s j).fc.pending.length < (arr l j).length + (s i).fc.pending.length := by
  obtain ⟨i0, hact⟩ := x.active
  by_cases hq : ∃ j, i ≤ j ∧ (arr l i).length + (s j).fc.pending.length <
      (arr l j).length + (s i).fc.pending.length
  · exact hq
  exfalso
  have noread : ∀ j, i ≤ j → l j ≠ some (.fc .read) := by
    intro j hj hr
    have h1 := x.used_mono hj
    refine hq ⟨j + 1, by omega, ?_⟩
    rcases x.moves j with ⟨a, e⟩ | ⟨k, a, e⟩
    · rw [hr] at a; cases a
    · rw [hr] at a; cases a
      rcases pending_step e (x.running _) with ⟨-, g⟩ | ⟨g, -⟩
      · rw [arr_succ]; simp only [List.length_append]; omega
      · exact absurd rfl g
  have next : ∀ j, i ≤ j → (∃ bs, (s (j + 1)).fc.pending = (s j).fc.pending ++ bs) ∧
      ((s j).fc.main = .reading → (s (j + 1)).fc.main = .reading) := by
    intro j hj
    rcases x.moves j with ⟨a, e⟩ | ⟨k, a, e⟩
    · rw [e]; exact ⟨⟨[], (List.append_nil _).symm⟩, id⟩
    · rcases pending_step e (x.running _) with ⟨g, -⟩ | ⟨-, g, g'⟩
      · subst g; exact absurd a (noread j hj)
      · exact ⟨⟨_, g⟩, g'⟩
  have whole : ∀ d, ∃ q, readMessage (s (i + d)).fc.pending = some q := by
    intro d
    induction d with
    | zero => exact ⟨q, h⟩
    | succ d ih =>
      obtain ⟨⟨h1, h2, h3, h4⟩, hq⟩ := ih
      obtain ⟨bs, e⟩ := (next (i + d) (by omega)).1
      show ∃ q, readMessage (s (i + d + 1)).fc.pending = some q
      rw [e]
      exact ⟨_, readMessage_append hq bs⟩
  obtain ⟨j1, hj1, hm⟩ : ∃ j, i ≤ j ∧ (s j).fc.main = .reading := by
    cases e : (s i).fc.main with
    | reading => exact ⟨i, Nat.le_refl _, e⟩
    | handing b =>
      obtain ⟨j, h1, h2, -⟩ := x.handed e
      exact ⟨j, h1, h2⟩
  have reading : ∀ d, (s (j1 + d)).fc.main = .reading := by
    intro d
    induction d with
    | zero => exact hm
    | succ d ih => exact (next (j1 + d) (by omega)).2 ih
  obtain ⟨j, g1, m, g2, g3⟩ := x.fair (.fc .read) trivial (by nofun) (fun j => by
    refine ⟨max j (max j1 i0), Nat.le_max_left _ _, ?_⟩
    generalize hJ : max j (max j1 i0) = J
    have b : i ≤ J ∧ j1 ≤ J ∧ i0 ≤ J := by omega
    obtain ⟨⟨h1, h2, h3, h4⟩, hq⟩ := whole (J - i)
    rw [Nat.add_sub_cancel' b.1] at hq
    have hr := reading (J - j1)
    rw [Nat.add_sub_cancel' b.2.1] at hr
    cases ha : llrpSwitch env.headers h1 h3 with
    | none => exact ⟨.fc .read, _, rfl, .fc (hact J b.2.2) (.unknown (x.running J) hr hq ha)⟩
    | some a => exact ⟨.fc .read, _, rfl, .fc (hact J b.2.2) (.read (x.running J) hr hq ha)⟩) i
  have := kind_fc g3
  subst this
  exact noread j g1 g2

theorem prefix_of_longer {α : Type} {a b l : List α} (h1 : a <+: l) (h2 : b <+: l) (h : a.length ≤ b.length) :
    a <+: b := List.prefix_of_prefix_length_le h1 h2 h

/-- all that has come is read -/
theorem reads (x : Lasting env c tr sub E flag s l) (i : Nat) : ∃ j used, i ≤ j ∧
    arr l j = used ++ (s j).fc.pending ∧ (llrpLoop env.headers (arr l i)).1 <+: (llrpLoop env.headers used).1 := by
  suffices h : ∀ n j, i ≤ j → (arr l i).length + (s j).fc.pending.length ≤ (arr l j).length + n →
      ∃ j used, i ≤ j ∧ arr l j = used ++ (s j).fc.pending ∧
        (llrpLoop env.headers (arr l i)).1 <+: (llrpLoop env.headers used).1 from
    h (arr l i).length i (Nat.le_refl _) (by
      obtain ⟨used, e, -⟩ := x.read i
      rw [e]; simp only [List.length_append]; omega)
  intro n
  have long : ∀ j, i ≤ j → (arr l i).length + (s j).fc.pending.length ≤ (arr l j).length →
      ∃ j used, i ≤ j ∧ arr l j = used ++ (s j).fc.pending ∧
        (llrpLoop env.headers (arr l i)).1 <+: (llrpLoop env.headers used).1 := by
    intro j hj hle
    obtain ⟨used, e, -⟩ := x.read j
    refine ⟨j, used, hj, e, ?_⟩
    obtain ⟨more, rfl⟩ : arr l i <+: used := prefix_of_longer (arr_prefix l hj) (by rw [e]; exact List.prefix_append _ _) (by
      rw [e, List.length_append] at hle; omega)
    exact llrpLoop_prefix _ _ _
  induction n with
  | zero => intro j hj hle; exact long j hj hle
  | succ n ih =>
    intro j hj hle
    cases hr : readMessage (s j).fc.pending with
    | none =>
      obtain ⟨used, e, h2, -⟩ := x.read j
      refine ⟨j, used, hj, e, ?_⟩
      have h3 := h2 (s j).fc.pending
      rw [← e, llrpLoop_none hr, List.append_nil] at h3
      obtain ⟨more, hm⟩ := arr_prefix l hj
      have := llrpLoop_prefix env.headers (arr l i) more
      rw [hm, h3] at this
      exact this
    | some q =>
      obtain ⟨j', h1, h2⟩ := x.progress hr
      exact ih j' (by omega) (by omega)

/-- what has been read remains read -/
theorem later (x : Lasting env c tr sub E flag s l) {i j : Nat} (h : i ≤ j) :
    (s i).fc.written <+: (s j).fc.written ∧ (s i).fc.batches <+: (s j).fc.batches := by
  obtain ⟨u, a1, a2, a3, a4⟩ := x.read i
  obtain ⟨v, b1, b2, b3, b4⟩ := x.read j
  have hm := x.used_mono h
  obtain ⟨more, rfl⟩ : u <+: v := by
    refine prefix_of_longer ((?_ : u <+: arr l i).trans (arr_prefix l h)) (by rw [b1]; exact List.prefix_append _ _) ?_
    · rw [a1]; exact List.prefix_append _ _
    · rw [a1, b1] at hm
      simp only [List.length_append] at hm
      omega
  obtain ⟨as, hp⟩ := llrpLoop_prefix env.headers u more
  refine ⟨?_, map_some_prefix ?_⟩
  · rw [a3, b3, ← hp, repliesTo_append]; exact List.prefix_append _ _
  · rw [a4, b4, ← hp, reportBodies_append, List.map_append]; exact List.prefix_append _ _

/-- the batches there are get done -/
theorem all_done (x : Lasting env c tr sub E flag s l) (i : Nat) :
    ∃ j, i ≤ j ∧ (s i).fc.batches <+: (s j).fc.done.map Prod.fst := by
  have quiet : ∀ i, (s i).fc.main = .reading → ∃ j, i ≤ j ∧ (s i).fc.batches <+: (s j).fc.done.map Prod.fst := by
    intro i hm
    cases e : (s i).fc.listener with
    | waiting =>
      refine ⟨i, Nat.le_refl _, ?_⟩
      unfold Fc.batches Fc.underWay
      rw [hm, e]
      simp
    | searching b t r =>
      obtain ⟨j, h1, -, r', h2⟩ := x.done e
      refine ⟨j, h1, ?_⟩
      unfold Fc.batches Fc.underWay
      rw [hm, e, h2]
      simp
  cases hm : (s i).fc.main with
  | reading => exact quiet i hm
  | handing b =>
    obtain ⟨j, h1, h2, -⟩ := x.handed hm
    obtain ⟨j', h3, h4⟩ := quiet j h2
    exact ⟨j', by omega, (x.later h1).2.trans h4⟩

/-- all that has come is answered and searched -/
theorem answered (x : Lasting env c tr sub E flag s l) (i : Nat) : ∃ j, i ≤ j ∧
    repliesTo 0#32 (llrpLoop env.headers (arr l i)).1 <+: (s j).fc.written ∧
    (reportBodies (llrpLoop env.headers (arr l i)).1).map env.decode <+: (s j).fc.done.map fun p => some p.1 := by
  obtain ⟨j, used, h1, h2, as, h3⟩ := x.reads i
  obtain ⟨v, b1, b2, b3, b4⟩ := x.read j
  have e : used = v := List.append_cancel_right (h2.symm.trans b1)
  subst e
  obtain ⟨j', h4, h5⟩ := x.all_done j
  refine ⟨j', by omega, List.IsPrefix.trans ?_ (x.later h4).1, List.IsPrefix.trans ?_
    (?_ : (s j).fc.batches.map some <+: _)⟩
  · rw [b3, ← h3, repliesTo_append]; exact List.prefix_append _ _
  · rw [b4, ← h3, reportBodies_append, List.map_append]; exact List.prefix_append _ _
  · have := h5.map some
    rwa [List.map_map] at this

end Lasting
end Gosstrak
