import Verif.Proofs.Whole

/-!
A way to carry out moves of the whole program, for the cases beside the theorems.
-/
namespace Gosstrak

variable {F : Type}

/-- one of the possible outcomes of the search of an engine -/
def engineExec (tr : Translator) (E : Engines) (e : ReadEvent) : EngineName → Option (SearchResult × Engines)
  | .legacy => (legacySearch tr E.legacy e.1 e.2).map (·, E)
  | .list => (E.list.search tr e.1 e.2).map (·, E)
  | .patricia => (E.patricia.searchEngine tr e.1 e.2).map (·, E)
  | .splay => (E.splay.searchEngine tr e.1 e.2).map fun p => (p.1, { E with splay := p.2 })

theorem engineExec_sound (tr : Translator) (E : Engines) (e : ReadEvent) (n : EngineName) :
    EngineSearch tr E e n (engineExec tr E e n) := by
  cases n with
  | legacy => exact .legacy E.legacy (List.Perm.refl _)
  | list => exact .list
  | patricia => exact .patricia
  | splay => exact .splay

/-- the move of the reader, the message loop or the searching goroutine outside of a search -/
def fcExec (env : FcEnv) (s : Fc Engines) (l : FcLabel) : Option (Fc Engines) :=
  if s.ended = none then
    match l with
    | .arrive bs => some { s with pending := s.pending ++ bs }
    | .eof =>
      if s.main = .reading ∧ (readMessage s.pending).isNone then some { s with ended := some .fatal } else none
    | .read =>
      if s.main = .reading then
        match readMessage s.pending with
        | some (h, _, body, rest) =>
          match llrpSwitch env.headers h body with
          | some a => some (fcAct env { s with pending := rest } a)
          | none => some { s with ended := some .fatal }
        | none => none
      else none
    | .hand =>
      match s.main, s.listener with
      | .handing batch, .waiting => some { s with main := .reading, listener := .searching batch batch [] }
      | _, _ => none
    | .search _ => none
    | .finish =>
      match s.listener with
      | .searching batch [] reports => some { s with listener := .waiting, done := s.done ++ [(batch, reports)] }
      | _ => none
  else none

theorem fcExec_sound {env : FcEnv} {s t : Fc Engines} {l : FcLabel} (h : fcExec env s l = some t) :
    FcStep env noAnswer s l t := by
  unfold fcExec at h
  split at h
  case isFalse => cases h
  case isTrue he =>
    cases l with
    | arrive bs => cases h; exact .arrive he
    | eof =>
      dsimp only at h
      split at h <;> cases h
      rename_i hc
      exact .eof he hc.1 (Option.isNone_iff_eq_none.mp hc.2)
    | read =>
      dsimp only at h
      split at h
      case isFalse => cases h
      case isTrue hm =>
        split at h
        · rename_i e
          split at h <;> cases h
          · rename_i e'; exact .read he hm e e'
          · rename_i e'; exact .unknown he hm e e'
        · cases h
    | hand =>
      dsimp only at h
      split at h
      · rename_i e1 e2
        cases h
        exact .hand he e1 e2
      · cases h
    | search r => cases h
    | finish =>
      dsimp only at h
      split at h
      · rename_i e1
        cases h
        exact .finish he e1
      · cases h

/-- what the program can be told to do in a test -/
inductive ProgOrder where
  | fc (l : FcLabel)
  /-- a move of the factory; `engineSearch` and the returning of a search are found out -/
  | factory (l : Label)
  /-- an engine is searched -/
  | engine (n : EngineName)
  /-- a search returns after this time -/
  | ret (t : Nat)

/-- the move and the state after it -/
def progExec (env : FcEnv) (c : Config F) (tr : Translator) (s : Prog F) : ProgOrder → Option (ProgLabel × Prog F)
  | .fc l => if s.world.isActive then (fcExec env s.fc l).map fun f => (.fc l, { s with fc := f }) else none
  | .factory l =>
    if s.fc.ended = none then
      match l with
      | .search order =>
        match s.fc.listener with
        | .searching _ (_ :: _) _ => (World.step c s.world (.search order)).map fun w => (.factory l, s.moved w)
        | _ => none
      | .searchNext =>
        match s.world.searcher with
        | .range [] => (World.step c s.world .searchNext).map fun w =>
            (.factory l, { s.moved w with chosen := s.chosen ++ [s.world.current] })
        | _ => (World.step c s.world .searchNext).map fun w => (.factory l, s.moved w)
      | .engineSearch _ => none
      | .track t =>
        match s.world.searcher with
        | .track _ none => none
        | _ => (World.step c s.world (.track t)).map fun w => (.factory l, s.moved w)
      | l => (World.step c s.world l).map fun w => (.factory l, s.moved w)
    else none
  | .engine n =>
    if s.fc.ended = none then
      match s.fc.listener, s.world.searcher with
      | .searching _ (e :: _) _, .call m _ =>
        if m = n.text then
          match engineExec tr s.fc.factory e n with
          | none => some (.panic, { s with fc := { s.fc with ended := some .panic } })
          | some (q, E) => (World.step c s.world (.engineSearch (decide (q.reportURIs ≠ [])))).map fun w =>
              (.factory (.engineSearch (decide (q.reportURIs ≠ []))),
                { s with fc := { s.fc with factory := E }, answer := some q }.moved w)
        else none
      | _, _ => none
    else none
  | .ret t =>
    if s.fc.ended = none then
      match s.fc.listener, s.world.searcher, s.answer with
      | .searching batch (_ :: todo) reports, .track _ none, some q =>
        (World.step c s.world (.track t)).map fun w => (.factory (.track t),
          { s with world := w, fc := { s.fc with listener := .searching batch todo (fcCollect reports q) } })
      | _, _, _ => none
    else none

theorem progExec_sound {env : FcEnv} {c : Config F} {tr : Translator} {s t : Prog F} {o : ProgOrder} {l : ProgLabel}
    (h : progExec env c tr s o = some (l, t)) : ProgStep env c tr s l t := by
  have get : ∀ {l' : Label} {g : World F → ProgLabel × Prog F}, (World.step c s.world l').map g = some (l, t) →
      ∃ w, World.step c s.world l' = some w ∧ g w = (l, t) := fun h => Option.map_eq_some_iff.mp h
  unfold progExec at h
  split at h
  · split at h
    case isFalse => cases h
    case isTrue ha =>
      obtain ⟨f, h1, h2⟩ := Option.map_eq_some_iff.mp h
      cases h2
      exact .fc ha (fcExec_sound h1)
  · rename_i l0
    split at h
    case isFalse => cases h
    case isTrue he =>
      split at h
      · split at h
        · rename_i hl
          obtain ⟨w, h1, h2⟩ := get h
          cases h2
          exact .call he hl h1
        · cases h
      · split at h
        · rename_i hs
          obtain ⟨w, h1, h2⟩ := get h
          cases h2
          exact .choose he hs h1
        · rename_i hs
          obtain ⟨w, h1, h2⟩ := get h
          cases h2
          exact .aside he hs h1
      · cases h
      · split at h
        · cases h
        · rename_i hs
          obtain ⟨w, h1, h2⟩ := get h
          cases h2
          exact .aside he hs h1
      · rename_i h1 h2 h3 h4
        obtain ⟨w, h5, h6⟩ := get h
        cases h6
        refine .aside he ?_ h5
        cases l0 with
        | search o => exact h1 _ rfl
        | searchNext => exact (h2 rfl).elim
        | engineSearch b => exact h3 _ rfl
        | track t => exact (h4 _ rfl).elim
        | _ => trivial
  · rename_i n
    split at h
    case isFalse => cases h
    case isTrue he =>
      split at h
      · rename_i b e todo r m rest hl hs
        split at h
        case isFalse => cases h
        case isTrue hm =>
          subst hm
          have hx := engineExec_sound tr s.fc.factory e n
          split at h
          · rename_i hq
            cases h
            rw [hq] at hx
            exact .panic he hl hs hx
          · rename_i q E hq
            rw [hq] at hx
            obtain ⟨w, h1, h2⟩ := get h
            cases h2
            exact .engine he hl hs hx h1
      · cases h
  · split at h
    case isFalse => cases h
    case isTrue he =>
      split at h
      · rename_i hl hs hq
        obtain ⟨w, h1, h2⟩ := get h
        cases h2
        exact .ret he hl hs hq h1
      · cases h

/-- several moves -/
def progExecs (env : FcEnv) (c : Config F) (tr : Translator) :
    Prog F → List ProgOrder → Option (List ProgLabel × Prog F)
  | s, [] => some ([], s)
  | s, o :: os =>
    match progExec env c tr s o with
    | none => none
    | some (l, t) => (progExecs env c tr t os).map fun p => (l :: p.1, p.2)

theorem progExecs_sound {env : FcEnv} {c : Config F} {tr : Translator} {s0 : Prog F} :
    ∀ (os : List ProgOrder) {s t : Prog F} {ls0 ls : List ProgLabel}, ProgRun env c tr s0 ls0 s →
      progExecs env c tr s os = some (ls, t) → ProgRun env c tr s0 (ls0 ++ ls) t
  | [], s, t, ls0, ls, h0, h => by
    cases h
    rw [List.append_nil]
    exact h0
  | o :: os, s, t, ls0, ls, h0, h => by
    unfold progExecs at h
    split at h
    · cases h
    · rename_i l u e
      obtain ⟨p, h1, h2⟩ := Option.map_eq_some_iff.mp h
      cases h2
      have := progExecs_sound os (.snoc h0 (progExec_sound e)) h1
      rw [List.append_assoc] at this
      exact this

end Gosstrak
