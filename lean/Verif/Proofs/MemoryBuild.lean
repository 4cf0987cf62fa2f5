import Verif.Proofs.Memory
import Verif.Proofs.Splay

/-! The construction of a splay tree in memory. -/
namespace Gosstrak

/-- the nesting of a map is at most `n` levels deep -/
def BuildFits : Nat → BSub → Prop
  | 0, _ => False
  | n + 1, b => ∀ k p, mapGet b k = some p → p.subset ≠ [] → BuildFits n p.subset

theorem BuildFits.mono : ∀ {n n' : Nat} {b : BSub}, BuildFits n b → n ≤ n' → BuildFits n' b
  | 0, _, _, h, _ => h.elim
  | n + 1, 0, _, _, hn => by omega
  | n + 1, n' + 1, b, h, hn => fun k p h1 h2 => (h k p h1 h2).mono (by omega)

theorem BuildFits.build_eq : ∀ {n n' : Nat} {b : BSub}, BuildFits n b → n ≤ n' → SNode.build n' b = SNode.build n b
  | 0, _, _, h, _ => h.elim
  | n + 1, 0, _, _, hn => by omega
  | n + 1, n' + 1, b, h, hn => by
    have hstep : SNode.buildStep (SNode.build n') b = SNode.buildStep (SNode.build n) b := by
      funext fs next
      unfold SNode.buildStep
      cases hg : mapGet b fs with
      | none => rfl
      | some p =>
        dsimp only
        by_cases hs : p.subset = []
        · simp [hs]
        · rw [(h fs p hg hs).build_eq (by omega)]
    rw [SNode.build, SNode.build, hstep]

theorem fits_of_linked : ∀ (fuel : Nat) (b : BSub), Linked b →
    (∀ q u, Full b q u → q.length < fuel) →
    ((∀ k p, (k, p) ∈ b → k ≠ []) ∨ ∀ q u, Full b q u → q.length + 1 < fuel) → b ≠ [] → BuildFits fuel b
  | 0, b, _, hfull, _, hb => by
    cases b with
    | nil => exact absurd rfl hb
    | cons e b =>
      obtain ⟨k, o, u, s⟩ := e
      have := hfull k u (.here (by simp : (k, PSub.mk o u s) ∈ _))
      omega
  | fuel + 1, b, hl, hfull, hfuel, _ => by
    intro k p hp hs
    obtain ⟨o, v, s⟩ := p
    have hmem : (k, PSub.mk o v s) ∈ b := (mapGet_iff hl.isMap k _).mp hp
    have hne := hl.nonempty _ _ _ _ hmem
    refine fits_of_linked fuel s (hl.sub _ _ _ _ hmem) (fun q u hq => ?_) (Or.inl hne) hs
    have h1 := hfull _ _ (.under hmem hq)
    rw [List.length_append] at h1
    rcases hfuel with h | h
    · have := List.length_pos_iff.mpr (h k _ hmem)
      omega
    · have := h _ _ (.under hmem hq)
      rw [List.length_append] at this
      omega

theorem splayBuild_refines : ∀ (n : Nat) (b : BSub) (h : Mem) (a : Nat), BuildFits n b → b ≠ [] →
    (∃ c, h.get a = some c) → a < h.next →
    ∃ h' d', splayBuild n h a b = .ok h' ∧ Holds h' (SNode.build n b) (some a) d' ∧ From h h' [a] d' ∧
      Changes h h' [a]
  | 0, _, _, _, hf, _, _, _ => hf.elim
  | n + 1, b, h, a, hf, hb, hc, ha => by
    have key : ∀ (ks : List Str) (h : Mem) (cur : Nat), ks ≠ [] → (∀ k ∈ ks, ∃ p, mapGet b k = some p) →
        (∃ c, h.get cur = some c) → cur < h.next →
        ∃ h' d', splayBuildKeys (splayBuild n) b ks h cur = .ok h' ∧
          Holds h' (ks.foldr (SNode.buildStep (SNode.build n) b) .nil) (some cur) d' ∧
          From h h' [cur] d' ∧ Changes h h' [cur] := by
      intro ks
      induction ks with
      | nil => intro _ _ h; exact absurd rfl h
      | cons fs rest ih =>
        intro h cur _ hks ⟨c, hc⟩ hcur
        obtain ⟨p, hp⟩ := hks fs (by simp)
        rw [splayBuildKeys, hp, List.foldr_cons]
        dsimp only
        -- after the assignments of the filter and the URI
        generalize hh1 : ((h.upd cur fun c => { c with f := some (newFilter fs p.offset) }).upd cur fun c =>
          { c with uri := p.uri }) = h1
        have g1 : h1.get cur = some ⟨p.uri, some (newFilter fs p.offset), c.l, c.r⟩ := by
          rw [← hh1]; simp [upd_get, hc]
        have g2 : ∀ x, x ≠ cur → h1.get x = h.get x := by
          intro x hx; rw [← hh1]; simp [upd_get, hx]
        have g3 : h1.next = h.next := by rw [← hh1]; rfl
        -- after the subset
        obtain ⟨h4, pm, dm, s1, ⟨r, s2⟩, s3, s4, s5, s6⟩ : ∃ h4 pm dm,
            (if p.subset.length ≠ 0 then
              (splayBuild n h1.alloc.1 h1.alloc.2 p.subset).bind fun h =>
                .ok (h.upd cur fun c => { c with l := some h1.alloc.2 })
            else .ok (h1.upd cur fun c => { c with l := none })) = Out.ok h4 ∧
            (∃ r, h4.get cur = some ⟨p.uri, some (newFilter fs p.offset), pm, r⟩) ∧
            Holds h4 (if p.subset.length ≠ 0 then SNode.build n p.subset else .nil) pm dm ∧
            (∀ x ∈ dm, h.next ≤ x ∧ x < h4.next) ∧ h.next ≤ h4.next ∧
            ∀ x, x ≠ cur → x < h.next → h4.get x = h.get x := by
          by_cases hs : p.subset = []
          · refine ⟨_, none, [], if_neg (by simp [hs]), ⟨c.r, ?_⟩, ?_, by simp, ?_, ?_⟩
            · simp [upd_get, g1]
            · rw [if_neg (by simp [hs])]; exact ⟨rfl, rfl⟩
            · rw [upd_next, g3]; exact Nat.le_refl _
            · intro x hx _; rw [upd_get, if_neg hx, g2 x hx]
          · have hs' : p.subset.length ≠ 0 := by rw [Ne, List.length_eq_zero_iff]; exact hs
            rw [if_pos hs', if_pos hs']
            have hx2 : h1.alloc.2 = h.next := g3
            rw [hx2]
            have hnext2 : h1.alloc.1.next = h.next + 1 := by simp [Mem.alloc, g3]
            obtain ⟨h3, d3, i1, i2, i3, i4, i5⟩ := splayBuild_refines n p.subset h1.alloc.1 h.next
              (hf fs p hp hs) hs ⟨{}, by rw [alloc_get, g3, if_pos rfl]⟩ (by omega)
            rw [i1]
            have hcx : cur ≠ h.next := by omega
            have hcd : cur ∉ d3 := by
              intro hx
              rcases i3 cur hx with hx | hx
              · simp at hx; omega
              · omega
            refine ⟨_, some h.next, d3, rfl, ⟨c.r, ?_⟩, ?_, ?_, ?_, ?_⟩
            · rw [upd_get, if_pos rfl, i5 cur (by simpa using hcx) (by omega), alloc_get, g3, if_neg hcx, g1]
              rfl
            · refine i2.frame fun x hx => ?_
              rw [upd_get, if_neg]
              rintro rfl
              exact hcd hx
            · intro x hx
              rw [upd_next]
              rcases i3 x hx with hx | hx
              · simp at hx; omega
              · omega
            · rw [upd_next]; omega
            · intro x hx hlt
              rw [upd_get, if_neg hx, i5 x (by simp; omega) (by omega), alloc_get, g3, if_neg (by omega), g2 x hx]
        have hcdm : cur ∉ dm := fun hx => by have := (s4 cur hx).1; omega
        change ∃ h' d', (Out.bind (if p.subset.length ≠ 0 then
              (splayBuild n h1.alloc.1 h1.alloc.2 p.subset).bind fun h =>
                .ok (h.upd cur fun c => { c with l := some h1.alloc.2 })
            else .ok (h1.upd cur fun c => { c with l := none })) _) = _ ∧ _
        rw [s1]
        simp only [Out.bind]
        have hstep : SNode.buildStep (SNode.build n) b fs
            (rest.foldr (SNode.buildStep (SNode.build n) b) .nil) = .node p.uri (some (newFilter fs p.offset))
            (if p.subset.length ≠ 0 then SNode.build n p.subset else .nil)
            (rest.foldr (SNode.buildStep (SNode.build n) b) .nil) := by
          rw [SNode.buildStep, hp]
        rw [hstep]
        by_cases hr : rest = []
        · subst hr
          rw [if_neg (by simp)]
          refine ⟨_, cur :: (dm ++ []), rfl, ?_, ?_, ?_, ?_⟩
          · refine ⟨cur, pm, none, dm, [], rfl, ?_, s3.frame fun x hx => ?_, ⟨rfl, rfl⟩, rfl, hcdm, by simp, by simp⟩
            · rw [upd_get, if_pos rfl, s2]; rfl
            · rw [upd_get, if_neg]; rintro rfl; exact hcdm hx
          · intro x hx
            simp only [List.append_nil, List.mem_cons] at hx
            rcases hx with rfl | hx
            · exact Or.inl (by simp)
            · exact Or.inr (s4 x hx)
          · exact s5
          · intro x hx hlt
            simp only [List.mem_singleton] at hx
            rw [upd_get, if_neg hx, s6 x hx hlt]
        · rw [if_pos hr]
          have hy : h4.alloc.2 = h4.next := rfl
          have hcy : cur ≠ h4.next := by omega
          obtain ⟨h6, d6, i1, i2, i3, i4, i5⟩ := ih (h4.alloc.1.upd cur fun c => { c with r := some h4.next })
            h4.next hr (fun k hk => hks k (by simp [hk]))
            ⟨{}, by rw [upd_get, if_neg (Ne.symm hcy), alloc_get, if_pos rfl]⟩
            (by rw [upd_next]; show h4.next < h4.next + 1; omega)
          have hn5 : (h4.alloc.1.upd cur fun c => { c with r := some h4.next }).next = h4.next + 1 := rfl
          have hd6 : ∀ x ∈ d6, h4.next ≤ x ∧ x < h6.next := by
            intro x hx
            rcases i3 x hx with hx | hx
            · simp at hx; subst hx; omega
            · omega
          refine ⟨h6, cur :: (dm ++ d6), i1, ?_, ?_, by omega, ?_⟩
          · refine ⟨cur, pm, some h4.next, dm, d6, rfl, ?_, s3.frame fun x hx => ?_, i2, rfl, hcdm, ?_, ?_⟩
            · rw [i5 cur (by simpa using hcy) (by omega), upd_get, if_pos rfl, alloc_get, if_neg hcy, s2]; rfl
            · have := (s4 x hx).2
              rw [i5 x (by simp; omega) (by omega), upd_get, if_neg (by rintro rfl; exact hcdm hx), alloc_get,
                if_neg (by omega)]
            · intro hx; have := (hd6 cur hx).1; omega
            · intro x hx hx'; have := (s4 x hx).2; have := (hd6 x hx').1; omega
          · intro x hx
            simp only [List.mem_cons, List.mem_append] at hx
            rcases hx with rfl | hx | hx
            · exact Or.inl (by simp)
            · have := s4 x hx; exact Or.inr (by omega)
            · have := hd6 x hx; exact Or.inr (by omega)
          · intro x hx hlt
            simp only [List.mem_singleton] at hx
            rw [i5 x (by simp; omega) (by omega), upd_get, if_neg hx, alloc_get, if_neg (by omega), s6 x hx hlt]
    rw [splayBuild, SNode.build]
    refine key (mapKeys b) h a ?_ ?_ hc ha
    · intro h0
      cases b with
      | nil => exact hb rfl
      | cons e b =>
        have : e.1 ∈ mapKeys (e :: b) := (mem_mapKeys _ _).mpr (by simp)
        rw [h0] at this
        simp at this
    · intro k hk
      exact (mapGet_isSome b k).mpr ((mem_mapKeys _ _).mp hk)

end Gosstrak
