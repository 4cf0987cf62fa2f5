import Verif.Proofs.Draws
import Verif.Props.Composition

namespace Gosstrak

/-! ### the text of a pattern with fields left out -/

theorem fillable_digits (sc : Scheme) (fields : List Str) (h : sc.Fillable fields) :
    fields ≠ [] ∧ ∀ f ∈ fields, IsDigits f := by
  have hnil : IsDigits [] := fun c hc => by simp at hc
  have hf : ∀ fv : Str, (fv = [] ∨ IsFilterValue fv) → IsDigits fv := by
    rintro fv (rfl | h)
    · exact hnil
    · exact h.1
  have hr : ∀ cp ref : Str, IsCompanyPrefix cp → (ref = [] ∧ 0 < sc.refDigits cp ∨ sc.Canonical cp ref) →
      IsDigits ref := by
    rintro cp ref hcp (⟨rfl, -⟩ | h)
    · exact hnil
    · exact (fits_of_canonical sc cp ref hcp h).1
  have hs : ∀ ser : Str, (ser = [] ∨ Numeral (decVal ser) ser ∧ decVal ser < 2 ^ 38) → IsDigits ser := by
    rintro ser (rfl | h)
    · exact hnil
    · exact h.1.1
  match fields, h with
  | [fv], h => exact ⟨by simp, by simpa using hf fv h⟩
  | [fv, cp], ⟨h, hcp⟩ => exact ⟨by simp, by simpa using ⟨hf fv h, hcp.1⟩⟩
  | [fv, cp, ref], ⟨h, hcp, h3⟩ => exact ⟨by simp, by simpa using ⟨hf fv h, hcp.1, hr cp ref hcp h3⟩⟩
  | [fv, cp, ref, ser], ⟨h, hcp, h3, _, h4⟩ =>
    exact ⟨by simp, by simpa using ⟨hf fv h, hcp.1, hr cp ref hcp h3, hs ser h4⟩⟩

theorem pattern_digits (sc : Scheme) (fields : List Str) (hne : fields ≠ []) (hd : ∀ f ∈ fields, IsDigits f) :
    PatternOf (sc.patternText fields) sc.typeName fields := by
  have hcol : ':' ∉ ['.'].intercalate fields := by
    intro hm
    rcases mem_intercalate _ _ _ hm with h | ⟨f, hf, hc⟩
    · exact absurd h (by decide)
    · exact (digit_plain _ (hd f hf _ hc)).1 rfl
  have ht : ':' ∉ sc.typeName := by cases sc <;> decide
  refine ⟨_, ['.'].intercalate fields, Or.inl ?_, ⟨by simp, ?_, rfl⟩, ⟨hne, ?_, ?_⟩⟩
  · unfold Scheme.patternText
    have e2 : ":".toList = [':'] := rfl
    rw [e2, intercalate_cons₂, List.intercalate_singleton]
    simp only [List.append_assoc, List.cons_append, List.nil_append]
  · intro p hp
    simp only [List.mem_cons, List.not_mem_nil, or_false] at hp
    rcases hp with rfl | rfl
    · exact ht
    · exact hcol
  · intro f hf hc
    exact (digit_plain _ (hd f hf _ hc)).2.1 rfl
  · unfold toUpper
    conv => rhs; rw [← List.map_id (['.'].intercalate fields)]
    apply List.map_congr_left
    intro c hc
    rcases mem_intercalate _ _ _ hc with rfl | ⟨f, hf, hc⟩
    · rfl
    · exact (digit_plain _ (hd f hf _ hc)).2.2

theorem patternKey_digits (mk : Encoder) (sc : Scheme) (fields : List Str) (hne : fields ≠ [])
    (hd : ∀ f ∈ fields, IsDigits f) (s : Str) (h : mk sc.typeName fields = some s) :
    patternKey mk (sc.patternText fields) = some s :=
  (patternKey_iff _ _ _).mpr ⟨_, _, pattern_digits sc fields hne hd, Or.inl h⟩

theorem toByte_digits (mk : Encoder) (uri : Str) (sc : Scheme) (fields : List Str) (hne : fields ≠ [])
    (hd : ∀ f ∈ fields, IsDigits f) (s : Str) (h : mk sc.typeName fields = some s) :
    toByteSubscriptions mk [(uri, [sc.patternText fields])] = [(s, uri)] := by
  rw [toByte_single, patternKey_digits mk sc fields hne hd s h]

/-! ### filling in -/

theorem fills_wellFormed (sc : Scheme) (fields fields' : List Str) (h : sc.Fillable fields)
    (hf : sc.Fills fields fields') : sc.WellFormed fields' := by
  have f1 : ∀ fv fv' : Str, (fv = [] ∨ IsFilterValue fv) →
      FilledIn (fun v => IsFilterValue v ∧ decVal v < 7) fv fv' → IsFilterValue fv' := by
    intro fv fv' h hf
    unfold FilledIn at hf
    split at hf
    · exact hf.1
    · rename_i hne
      rw [hf]; exact h.resolve_left hne
  have f2 : ∀ cp ref ref' : Str, (ref = [] ∧ 0 < sc.refDigits cp ∨ sc.Canonical cp ref) →
      FilledIn (fun v => sc.Canonical cp v ∧ decVal v < 10 ^ sc.refDigits cp) ref ref' → sc.Canonical cp ref' := by
    intro cp ref ref' h hf
    unfold FilledIn at hf
    split at hf
    · exact hf.1
    · rename_i hne
      rw [hf]; exact h.resolve_left (fun h => hne h.1)
  have f3 : ∀ ser ser' : Str, (ser = [] ∨ Numeral (decVal ser) ser ∧ decVal ser < 2 ^ 38) →
      FilledIn (fun v => Numeral (decVal v) v ∧ decVal v < 2 ^ 38) ser ser' →
      Numeral (decVal ser') ser' ∧ decVal ser' < 2 ^ 38 := by
    intro ser ser' h hf
    unfold FilledIn at hf
    split at hf
    · exact hf
    · rename_i hne
      rw [hf]; exact h.resolve_left hne
  match fields, fields', h, hf with
  | [fv], [fv'], h, hf => exact f1 fv fv' h hf
  | [fv, cp], [fv', cp'], ⟨h, hcp⟩, ⟨hf, e⟩ => rw [e]; exact ⟨f1 fv fv' h hf, hcp⟩
  | [fv, cp, ref], [fv', cp', ref'], ⟨h, hcp, hr⟩, ⟨hf, e, hg⟩ =>
    rw [e]; exact ⟨f1 fv fv' h hf, hcp, f2 _ ref ref' hr hg⟩
  | [fv, cp, ref, ser], [fv', cp', ref', ser'], ⟨h, hcp, hr, hse, hs⟩, ⟨hf, e, hg, hk⟩ =>
    rw [e]; exact ⟨f1 fv fv' h hf, hcp, f2 _ ref ref' hr hg, hse, f3 ser ser' hs hk⟩

/-- a drawn filter value -/
theorem filter_fill (x : Binutil) (hx : x.Ok) (d : Toss) (hd : d.Fair) (fv : Str) :
    ∃ fv', FilledIn (fun v => IsFilterValue v ∧ decVal v < 7) fv fv' ∧
      (x.tossing d).getFilter fv = x.getFilter fv' := by
  by_cases h : fv = []
  · subst h
    obtain ⟨hk, hb⟩ := tossing_ok x hx d hd
    obtain ⟨f, h1, h2, h3⟩ := filter_filled (x.tossing d) hk hb
    refine ⟨f, ?_, ?_⟩
    · unfold FilledIn; rw [if_pos rfl]; exact ⟨h1, h2⟩
    · rw [h3]; exact getFilter_settled x d x.randomBits f h1.2.1
  · refine ⟨fv, ?_, getFilter_settled x d x.randomBits fv h⟩
    unfold FilledIn; rw [if_neg h]

theorem ref_fill (x : Binutil) (hx : x.Ok) (d : Toss) (hd : d.Fair) (sc : Scheme) (cp ref : Str)
    (hcp : IsCompanyPrefix cp) (hr : ref = [] ∧ 0 < sc.refDigits cp ∨ sc.Canonical cp ref) :
    ∃ ref', FilledIn (fun v => sc.Canonical cp v ∧ decVal v < 10 ^ sc.refDigits cp) ref ref' ∧
      (x.tossing d).getRef ref (rowFor sc.table cp.length) = x.getRef ref' (rowFor sc.table cp.length) := by
  rcases hr with ⟨rfl, h0⟩ | hr
  · obtain ⟨hk, hb⟩ := tossing_ok x hx d hd
    obtain ⟨f, h1, h2, h3⟩ := ref_filled (x.tossing d) hk hb sc cp hcp (by
      rintro rfl
      have : 0 < 12 - cp.length := h0
      omega)
    refine ⟨f, ?_, ?_⟩
    · unfold FilledIn; rw [if_pos rfl]; exact ⟨h1, h2⟩
    · rw [h3]; exact getRef_given (x.tossing d) x rfl f _ (fits_of_canonical sc cp f hcp h1).2.1
  · have hne := (fits_of_canonical sc cp ref hcp hr).2.1
    refine ⟨ref, ?_, getRef_given (x.tossing d) x rfl ref _ hne⟩
    unfold FilledIn; rw [if_neg hne]

theorem serial_fill (x : Binutil) (hx : x.Ok) (d : Toss) (hd : d.Fair) (ser : Str) :
    ∃ ser', FilledIn (fun v => Numeral (decVal v) v ∧ decVal v < 2 ^ 38) ser ser' ∧
      (x.tossing d).getSerial ser = x.getSerial ser' := by
  by_cases h : ser = []
  · subst h
    obtain ⟨hk, hb⟩ := tossing_ok x hx d hd
    obtain ⟨f, h1, h2, h3⟩ := serial_filled (x.tossing d) hk
    refine ⟨f, ?_, ?_⟩
    · unfold FilledIn; rw [if_pos rfl]; exact ⟨h1, h2⟩
    · rw [h3]; exact getSerial_settled x d x.randomBits f h1.2.1
  · refine ⟨ser, ?_, getSerial_settled x d x.randomBits ser h⟩
    unfold FilledIn; rw [if_neg h]

/-- what is drawn is one of the ways to fill in the fields -/
theorem encoder_fill (x : Binutil) (hx : x.Ok) (d : Toss) (hd : d.Fair) (sc : Scheme) (fields : List Str)
    (h : sc.Fillable fields) :
    ∃ fields', sc.Fills fields fields' ∧ (x.tossing d).encoder sc.typeName fields = x.encoder sc.typeName fields' := by
  have hc : ∀ c r, (x.tossing d).getCompanyPrefix c r = x.getCompanyPrefix c r := fun _ _ => rfl
  match fields, h with
  | [fv], h =>
    obtain ⟨fv', h1, h2⟩ := filter_fill x hx d hd fv
    refine ⟨[fv'], h1, ?_⟩
    rw [(encoder_pieces _ sc fv [] [] []).1, (encoder_pieces _ sc fv' [] [] []).1, h2]
  | [fv, cp], ⟨h, hcp⟩ =>
    obtain ⟨fv', h1, h2⟩ := filter_fill x hx d hd fv
    refine ⟨[fv', cp], ⟨h1, rfl⟩, ?_⟩
    rw [(encoder_pieces _ sc fv cp [] []).2.1, (encoder_pieces _ sc fv' cp [] []).2.1, h2, hc]
  | [fv, cp, ref], ⟨h, hcp, hr⟩ =>
    obtain ⟨fv', h1, h2⟩ := filter_fill x hx d hd fv
    obtain ⟨ref', h3, h4⟩ := ref_fill x hx d hd sc cp ref hcp hr
    refine ⟨[fv', cp, ref'], ⟨h1, rfl, h3⟩, ?_⟩
    rw [(encoder_pieces _ sc fv cp ref []).2.2.1, (encoder_pieces _ sc fv' cp ref' []).2.2.1, h2, hc, h4]
  | [fv, cp, ref, ser], ⟨h, hcp, hr, hs, hse⟩ =>
    obtain ⟨fv', h1, h2⟩ := filter_fill x hx d hd fv
    obtain ⟨ref', h3, h4⟩ := ref_fill x hx d hd sc cp ref hcp hr
    obtain ⟨ser', h5, h6⟩ := serial_fill x hx d hd ser
    refine ⟨[fv', cp, ref', ser'], ⟨h1, rfl, h3, h5⟩, ?_⟩
    rw [(encoder_pieces _ sc fv cp ref ser).2.2.2 hs, (encoder_pieces _ sc fv' cp ref' ser').2.2.2 hs, h2, hc, h4, h6]

/-- a generator with chosen outcomes -/
theorem chosen_toss (F R S : Str) (w k v r s : Nat) (hF : BinPadded 3 v F) (hv : v < 7) (hR : BinPadded w r R)
    (hr : r < 10 ^ k) (hS : BinPadded 38 s S) :
    ∃ d : Toss, d.Fair ∧ d 0 3 7 = F ∧ d 1 w (10 ^ k) = R ∧ d 2 38 (2 ^ 38) = S := by
  have hs : s < 2 ^ 38 := by have := binVal_lt S; rw [hS.2.2, hS.2.1] at this; exact this
  refine ⟨fun i n m => if i = 0 ∧ n = 3 ∧ m = 7 then F else if i = 1 ∧ n = w ∧ m = 10 ^ k then R
    else if i = 2 ∧ n = 38 ∧ m = 2 ^ 38 then S else zeroToss i n m, ⟨?_, ?_⟩, ?_, ?_, ?_⟩
  · intro i n m
    split
    · rename_i h; rw [h.2.1]; exact ⟨hF.1, hF.2.1⟩
    · split
      · rename_i h; rw [h.2.1]; exact ⟨hR.1, hR.2.1⟩
      · split
        · rename_i h; rw [h.2.1]; exact ⟨hS.1, hS.2.1⟩
        · exact zeroToss_fair.bits i n m
  · intro i n m hm
    split
    · rename_i h; rw [h.2.2, hF.2.2]; exact hv
    · split
      · rename_i h; rw [h.2.2, hR.2.2]; exact hr
      · split
        · rename_i h; rw [h.2.2, hS.2.2]; exact hs
        · exact zeroToss_fair.below i n m hm
  · exact if_pos ⟨rfl, rfl, rfl⟩
  · dsimp only
    rw [if_neg (fun h => absurd h.1 (by decide)), if_pos ⟨rfl, rfl, rfl⟩]
  · dsimp only
    rw [if_neg (fun h => absurd h.1 (by decide)), if_neg (fun h => absurd h.1 (by decide)), if_pos ⟨rfl, rfl, rfl⟩]

theorem zeros_padded (n : Nat) : BinPadded n 0 (zeroPadding n) :=
  ⟨isBitStr_zeros n, List.length_replicate, binVal_zeros n⟩

theorem filter_choice (x : Binutil) (fv fv' : Str)
    (h : FilledIn (fun v => IsFilterValue v ∧ decVal v < 7) fv fv') :
    ∃ F v, BinPadded 3 v F ∧ v < 7 ∧ ∀ d : Toss, d 0 3 7 = F → (x.tossing d).getFilter fv = x.getFilter fv' := by
  unfold FilledIn at h
  split at h
  · rename_i e
    subst e
    exact ⟨x.getFilter fv', _, getFilter_padded x fv' h.1, h.2, fun d hd => hd⟩
  · rename_i e
    refine ⟨_, 0, zeros_padded 3, by decide, fun d _ => ?_⟩
    rw [h]; exact getFilter_settled x d x.randomBits fv e

theorem ref_choice (x : Binutil) (hx : x.Ok) (sc : Scheme) (cp ref ref' : Str) (hcp : IsCompanyPrefix cp)
    (h : FilledIn (fun v => sc.Canonical cp v ∧ decVal v < 10 ^ sc.refDigits cp) ref ref') :
    ∃ R r, BinPadded (sc.refBits cp) r R ∧ r < 10 ^ sc.refPlaces cp ∧ ∀ d : Toss,
      d 1 (sc.refBits cp) (10 ^ sc.refPlaces cp) = R →
      (x.tossing d).getRef ref (rowFor sc.table cp.length) = x.getRef ref' (rowFor sc.table cp.length) := by
  have hb : sc.refBits cp = sc.width - companyBits (partitionFor cp) := if_pos hcp.2
  have hp : sc.refPlaces cp = sc.refDigits cp := if_pos hcp.2
  unfold FilledIn at h
  split at h
  · rename_i e
    subst e
    refine ⟨x.getRef ref' (rowFor sc.table cp.length), decVal ref', ?_, ?_, fun d hd => ?_⟩
    · rw [hb]
      exact (pieces_padded x hx sc cp hcp).2.2 ref' (fits_of_canonical sc cp ref' hcp h.1)
    · rw [hp]; exact h.2
    · rw [getRef_empty]; exact hd
  · rename_i e
    refine ⟨_, 0, zeros_padded _, Nat.pow_pos (by decide), fun d _ => ?_⟩
    rw [h]; exact getRef_given (x.tossing d) x rfl ref _ e

theorem serial_choice (x : Binutil) (hx : x.Ok) (ser ser' : Str)
    (h : FilledIn (fun v => Numeral (decVal v) v ∧ decVal v < 2 ^ 38) ser ser') :
    ∃ S s, BinPadded 38 s S ∧ ∀ d : Toss, d 2 38 (2 ^ 38) = S →
      (x.tossing d).getSerial ser = x.getSerial ser' := by
  unfold FilledIn at h
  split at h
  · rename_i e
    subst e
    refine ⟨x.getSerial ser', decVal ser', getSerial_padded x hx ser' ⟨h.1.1, h.1.2.1, h.2⟩, fun d hd => ?_⟩
    rw [getSerial_empty]; exact hd
  · rename_i e
    refine ⟨_, 0, zeros_padded 38, fun d _ => ?_⟩
    rw [h]; exact getSerial_settled x d x.randomBits ser e

/-- every way to fill in the fields can be drawn -/
theorem encoder_choice (x : Binutil) (hx : x.Ok) (sc : Scheme) (fields fields' : List Str)
    (h : sc.Fillable fields) (hf : sc.Fills fields fields') :
    ∃ d : Toss, d.Fair ∧ (x.tossing d).encoder sc.typeName fields = x.encoder sc.typeName fields' := by
  have hc : ∀ (d : Toss) c r, (x.tossing d).getCompanyPrefix c r = x.getCompanyPrefix c r := fun _ _ _ => rfl
  match fields, fields', h, hf with
  | [fv], [fv'], h, hf =>
    obtain ⟨F, v, a1, a2, a3⟩ := filter_choice x fv fv' hf
    obtain ⟨d, hd, d1, -, -⟩ := chosen_toss F _ _ 0 0 v 0 0 a1 a2 (zeros_padded 0) (by decide) (zeros_padded 38)
    refine ⟨d, hd, ?_⟩
    rw [(encoder_pieces _ sc fv [] [] []).1, (encoder_pieces _ sc fv' [] [] []).1, a3 d d1]
  | [fv, cp], [fv', cp'], ⟨h, hcp⟩, ⟨hf, e⟩ =>
    subst e
    obtain ⟨F, v, a1, a2, a3⟩ := filter_choice x fv fv' hf
    obtain ⟨d, hd, d1, -, -⟩ := chosen_toss F _ _ 0 0 v 0 0 a1 a2 (zeros_padded 0) (by decide) (zeros_padded 38)
    refine ⟨d, hd, ?_⟩
    rw [(encoder_pieces _ sc fv cp' [] []).2.1, (encoder_pieces _ sc fv' cp' [] []).2.1, a3 d d1, hc]
  | [fv, cp, ref], [fv', cp', ref'], ⟨h, hcp, hr⟩, ⟨hf, e, hg⟩ =>
    subst e
    obtain ⟨F, v, a1, a2, a3⟩ := filter_choice x fv fv' hf
    obtain ⟨R, r, b1, b2, b3⟩ := ref_choice x hx sc cp' ref ref' hcp hg
    obtain ⟨d, hd, d1, d2, -⟩ := chosen_toss F R _ _ _ v r 0 a1 a2 b1 b2 (zeros_padded 38)
    refine ⟨d, hd, ?_⟩
    rw [(encoder_pieces _ sc fv cp' ref []).2.2.1, (encoder_pieces _ sc fv' cp' ref' []).2.2.1, a3 d d1, hc, b3 d d2]
  | [fv, cp, ref, ser], [fv', cp', ref', ser'], ⟨h, hcp, hr, hs, hse⟩, ⟨hf, e, hg, hk⟩ =>
    subst e
    obtain ⟨F, v, a1, a2, a3⟩ := filter_choice x fv fv' hf
    obtain ⟨R, r, b1, b2, b3⟩ := ref_choice x hx sc cp' ref ref' hcp hg
    obtain ⟨S, s, c1, c2⟩ := serial_choice x hx ser ser' hk
    obtain ⟨d, hd, d1, d2, d3⟩ := chosen_toss F R S _ _ v r s a1 a2 b1 b2 c1
    refine ⟨d, hd, ?_⟩
    rw [(encoder_pieces _ sc fv cp' ref ser).2.2.2 hs, (encoder_pieces _ sc fv' cp' ref' ser').2.2.2 hs, a3 d d1, hc,
      b3 d d2, c2 d d3]

/-! ### all patterns of a conversion -/

/-- what a pattern can be converted to -/
theorem key_choices (x : Binutil) (hx : x.Ok) (hb : Toss.Fair x.randomBits) (pat : Str)
    (h : ¬ LeftOpen pat ∨ ∃ (sc : Scheme) (fields : List Str), sc.Fillable fields ∧ pat = sc.patternText fields) :
    (∀ d : Toss, d.Fair → ∃ pat', FillsPattern pat pat' ∧
      patternKey (x.tossing d).encoder pat = patternKey x.encoder pat') ∧
    (∀ pat', FillsPattern pat pat' → ∃ d : Toss, d.Fair ∧
      patternKey (x.tossing d).encoder pat = patternKey x.encoder pat') := by
  constructor
  · intro d hd
    rcases h with h | ⟨sc, fields, hf, rfl⟩
    · exact ⟨pat, Or.inr ⟨h, rfl⟩, settled_key x d x.randomBits hd hb pat h⟩
    · obtain ⟨hne, hdig⟩ := fillable_digits sc fields hf
      obtain ⟨fields', h1, h2⟩ := encoder_fill x hx d hd sc fields hf
      have hw := fills_wellFormed sc fields fields' hf h1
      obtain ⟨s, hs, -⟩ := encoder_carries x hx sc fields' (wellFormed_encodable sc fields' hw)
      obtain ⟨n', d'⟩ := wellFormed_digits sc fields' hw
      refine ⟨_, Or.inl ⟨sc, fields, fields', hf, h1, rfl, rfl⟩, ?_⟩
      rw [patternKey_digits _ sc fields' n' d' s hs,
        patternKey_digits _ sc fields hne hdig s (by rw [h2]; exact hs)]
  · rintro pat' (⟨sc, fields, fields', hf, h1, rfl, rfl⟩ | ⟨hs, rfl⟩)
    · obtain ⟨hne, hdig⟩ := fillable_digits sc fields hf
      obtain ⟨d, hd, h2⟩ := encoder_choice x hx sc fields fields' hf h1
      have hw := fills_wellFormed sc fields fields' hf h1
      obtain ⟨s, hs, -⟩ := encoder_carries x hx sc fields' (wellFormed_encodable sc fields' hw)
      obtain ⟨n', d'⟩ := wellFormed_digits sc fields' hw
      refine ⟨d, hd, ?_⟩
      rw [patternKey_digits _ sc fields' n' d' s hs,
        patternKey_digits _ sc fields hne hdig s (by rw [h2]; exact hs)]
    · exact ⟨x.randomBits, hb, rfl⟩

/-- the loop over the patterns of one subscription -/
def Binutil.convertPats (x : Binutil) (ds : Nat → Toss) (uri : Str) (pats : List Str) (b : FlatSubs × Nat) :
    FlatSubs × Nat :=
  pats.foldl (fun b pat => (storePattern (x.tossing (ds b.2)).encoder uri b.1 pat, b.2 + 1)) b

/-- the loop over the subscriptions -/
def Binutil.convertSubs (x : Binutil) (ds : Nat → Toss) (sub : Subs) (b : FlatSubs × Nat) : FlatSubs × Nat :=
  sub.foldl (fun b e => x.convertPats ds e.1 e.2 b) b

theorem convertPats_snd (x : Binutil) (ds : Nat → Toss) (uri : Str) : ∀ (pats : List Str) (b : FlatSubs × Nat),
    (x.convertPats ds uri pats b).2 = b.2 + pats.length
  | [], _ => rfl
  | p :: pats, b => by
    have := convertPats_snd x ds uri pats (storePattern (x.tossing (ds b.2)).encoder uri b.1 p, b.2 + 1)
    rw [List.length_cons]
    refine this.trans ?_
    dsimp only
    omega

/-- only the draws from the present number on count -/
theorem convertPats_congr (x : Binutil) (ds es : Nat → Toss) (uri : Str) : ∀ (pats : List Str) (b : FlatSubs × Nat),
    (∀ n, b.2 ≤ n → n < b.2 + pats.length → ds n = es n) → x.convertPats ds uri pats b = x.convertPats es uri pats b
  | [], _, _ => rfl
  | p :: pats, b, h => by
    unfold Binutil.convertPats
    rw [List.foldl_cons, List.foldl_cons, h b.2 (Nat.le_refl _) (by rw [List.length_cons]; omega)]
    exact convertPats_congr x ds es uri pats _ (fun n h1 h2 => h n (by dsimp only at h1; omega)
      (by rw [List.length_cons]; dsimp only at h2; omega))

theorem convertSubs_congr (x : Binutil) (ds es : Nat → Toss) : ∀ (sub : Subs) (b : FlatSubs × Nat),
    (∀ n, b.2 ≤ n → ds n = es n) → x.convertSubs ds sub b = x.convertSubs es sub b
  | [], _, _ => rfl
  | e :: sub, b, h => by
    unfold Binutil.convertSubs
    rw [List.foldl_cons, List.foldl_cons, convertPats_congr x ds es e.1 e.2 b (fun n h1 _ => h n h1)]
    refine convertSubs_congr x ds es sub _ (fun n h1 => h n ?_)
    rw [convertPats_snd] at h1
    omega

theorem pats_fill (x : Binutil) (hx : x.Ok) (hb : Toss.Fair x.randomBits) (ds : Nat → Toss) (hd : ∀ n, (ds n).Fair)
    (uri : Str) : ∀ (pats : List Str) (b : FlatSubs × Nat), (∀ pat ∈ pats, ¬ LeftOpen pat ∨
      ∃ (sc : Scheme) (fields : List Str), sc.Fillable fields ∧ pat = sc.patternText fields) →
    ∃ pats', FillsPatterns pats pats' ∧
      (x.convertPats ds uri pats b).1 = pats'.foldl (storePattern x.encoder uri) b.1
  | [], b, _ => ⟨[], trivial, rfl⟩
  | p :: pats, b, h => by
    obtain ⟨p', h1, h2⟩ := (key_choices x hx hb p (h p List.mem_cons_self)).1 (ds b.2) (hd b.2)
    obtain ⟨pats', h3, h4⟩ := pats_fill x hx hb ds hd uri pats
      (storePattern (x.tossing (ds b.2)).encoder uri b.1 p, b.2 + 1) (fun q hq => h q (List.mem_cons_of_mem _ hq))
    refine ⟨p' :: pats', ⟨h1, h3⟩, ?_⟩
    rw [List.foldl_cons]
    have e : storePattern x.encoder uri b.1 p' = storePattern (x.tossing (ds b.2)).encoder uri b.1 p := by
      rw [storePattern_eq, storePattern_eq, h2]
    rw [e]
    exact h4

theorem subs_fill (x : Binutil) (hx : x.Ok) (hb : Toss.Fair x.randomBits) (ds : Nat → Toss) (hd : ∀ n, (ds n).Fair) :
    ∀ (sub : Subs) (b : FlatSubs × Nat), FillableSubs sub → ∃ sub', FillsSubs sub sub' ∧
      (x.convertSubs ds sub b).1 = sub'.foldl (fun b e => e.2.foldl (storePattern x.encoder e.1) b) b.1
  | [], b, _ => ⟨[], trivial, rfl⟩
  | e :: sub, b, h => by
    obtain ⟨pats', h1, h2⟩ := pats_fill x hx hb ds hd e.1 e.2 b (h e List.mem_cons_self)
    obtain ⟨sub', h3, h4⟩ := subs_fill x hx hb ds hd sub (x.convertPats ds e.1 e.2 b)
      (fun f hf => h f (List.mem_cons_of_mem _ hf))
    refine ⟨(e.1, pats') :: sub', ⟨rfl, h1, h3⟩, ?_⟩
    rw [List.foldl_cons]
    dsimp only
    rw [← h2]
    exact h4

theorem pats_choice (x : Binutil) (hx : x.Ok) (hb : Toss.Fair x.randomBits) (uri : Str) :
    ∀ (pats pats' : List Str) (b : FlatSubs × Nat), FillsPatterns pats pats' → (∀ pat ∈ pats, ¬ LeftOpen pat ∨
      ∃ (sc : Scheme) (fields : List Str), sc.Fillable fields ∧ pat = sc.patternText fields) →
    ∃ ds : Nat → Toss, (∀ n, (ds n).Fair) ∧
      (x.convertPats ds uri pats b).1 = pats'.foldl (storePattern x.encoder uri) b.1
  | [], [], b, _, _ => ⟨fun _ => zeroToss, fun _ => zeroToss_fair, rfl⟩
  | p :: pats, p' :: pats', b, ⟨h1, h2⟩, h => by
    obtain ⟨d, hd, h3⟩ := (key_choices x hx hb p (h p List.mem_cons_self)).2 p' h1
    have e : storePattern x.encoder uri b.1 p' = storePattern (x.tossing d).encoder uri b.1 p := by
      rw [storePattern_eq, storePattern_eq, h3]
    obtain ⟨ds, hds, h4⟩ := pats_choice x hx hb uri pats pats' (storePattern x.encoder uri b.1 p', b.2 + 1) h2
      (fun q hq => h q (List.mem_cons_of_mem _ hq))
    refine ⟨fun n => if n = b.2 then d else ds n, fun n => ?_, ?_⟩
    · dsimp only
      split
      · exact hd
      · exact hds n
    · rw [List.foldl_cons]
      unfold Binutil.convertPats
      rw [List.foldl_cons]
      dsimp only
      rw [if_pos rfl, ← e]
      have := convertPats_congr x (fun n => if n = b.2 then d else ds n) ds uri pats
        (storePattern x.encoder uri b.1 p', b.2 + 1) (fun n h1 _ => if_neg (by dsimp only at h1; omega))
      unfold Binutil.convertPats at this h4
      rw [this]
      exact h4

theorem subs_choice (x : Binutil) (hx : x.Ok) (hb : Toss.Fair x.randomBits) :
    ∀ (sub sub' : Subs) (b : FlatSubs × Nat), FillsSubs sub sub' → FillableSubs sub →
    ∃ ds : Nat → Toss, (∀ n, (ds n).Fair) ∧
      (x.convertSubs ds sub b).1 = sub'.foldl (fun b e => e.2.foldl (storePattern x.encoder e.1) b) b.1
  | [], [], b, _, _ => ⟨fun _ => zeroToss, fun _ => zeroToss_fair, rfl⟩
  | e :: sub, e' :: sub', b, ⟨h0, h1, h2⟩, h => by
    obtain ⟨ds, hds, h3⟩ := pats_choice x hx hb e.1 e.2 e'.2 b h1 (h e List.mem_cons_self)
    obtain ⟨es, hes, h4⟩ := subs_choice x hx hb sub sub' (x.convertPats ds e.1 e.2 b) h2
      (fun f hf => h f (List.mem_cons_of_mem _ hf))
    have k1 := convertPats_congr x (fun n => if n < b.2 + e.2.length then ds n else es n) ds e.1 e.2 b
      (fun n _ h => if_pos h)
    have k2 := convertSubs_congr x (fun n => if n < b.2 + e.2.length then ds n else es n) es sub
      (x.convertPats ds e.1 e.2 b) (fun n h => if_neg (by rw [convertPats_snd] at h; omega))
    refine ⟨fun n => if n < b.2 + e.2.length then ds n else es n, fun n => ?_, ?_⟩
    · dsimp only
      split
      · exact hds n
      · exact hes n
    · rw [List.foldl_cons, h0, ← h3]
      unfold Binutil.convertSubs
      rw [List.foldl_cons, k1]
      unfold Binutil.convertSubs at k2 h4
      rw [k2]
      exact h4

/-- the filters of one pattern have one length -/
theorem toss_length (x : Binutil) (d e : Toss) (hd : d.Fair) (he : e.Fair) (sc : Scheme) (fields : List Str) :
    ((x.tossing d).encoder sc.typeName fields).map List.length =
      ((x.tossing e).encoder sc.typeName fields).map List.length := by
  have hF := getFilter_length x d e hd he
  have hR := getRef_length x d e hd he sc
  have hc : ∀ c r, (x.tossing d).getCompanyPrefix c r = (x.tossing e).getCompanyPrefix c r := fun _ _ => rfl
  have hS : ∀ s, ((x.tossing d).getSerial s).length = ((x.tossing e).getSerial s).length := by
    intro s
    by_cases hs : s = []
    · subst hs; rw [getSerial_empty, getSerial_empty]; exact (hd.bits 2 38 _).2.trans (he.bits 2 38 _).2.symm
    · rw [getSerial_settled x d e s hs]
  match fields with
  | [] => rw [(encoder_none _ sc [] [] [] [] [] []).1, (encoder_none _ sc [] [] [] [] [] []).1]
  | [f] =>
    rw [(encoder_pieces _ sc f [] [] []).1, (encoder_pieces _ sc f [] [] []).1]
    simp only [Option.map_some, List.length_append, hF]
  | [f, c] =>
    rw [(encoder_pieces _ sc f c [] []).2.1, (encoder_pieces _ sc f c [] []).2.1]
    simp only [Option.map_some, List.length_append, hF, hc]
  | [f, c, r] =>
    rw [(encoder_pieces _ sc f c r []).2.2.1, (encoder_pieces _ sc f c r []).2.2.1]
    simp only [Option.map_some, List.length_append, hF, hc, hR]
  | [f, c, r, s] =>
    by_cases hs : sc.hasSerial
    · rw [(encoder_pieces _ sc f c r s).2.2.2 hs, (encoder_pieces _ sc f c r s).2.2.2 hs]
      simp only [Option.map_some, List.length_append, hF, hc, hR, hS]
    · rw [(encoder_none _ sc f c r s [] []).2.1 hs, (encoder_none _ sc f c r s [] []).2.1 hs]
  | a :: b :: c :: f :: g :: l =>
    rw [(encoder_none _ sc a b c f g l).2.2, (encoder_none _ sc a b c f g l).2.2]

/-- some tag carries the bits -/
theorem carrier (s : Str) (hs : IsBitStr s) (n : Nat) (hl : s.length ≤ 8 * n) :
    ∃ id : List Byte, id.length = n ∧ Carries s 0 id := by
  obtain ⟨id, l, hb⟩ := exists_id_bits (fun p => decide (s[p]? = some '1')) n
  refine ⟨id, l, fun j c hj _ => ?_⟩
  have := (List.getElem?_eq_some_iff.mp hj).1
  rw [Nat.zero_add, hb j (by omega), hj]
  rcases hs c (List.mem_of_getElem? hj) with rfl | rfl <;> decide

/-- bit strings of one length that a tag carries are equal -/
theorem carries_both {s t : Str} {id : List Byte} (hs : IsBitStr s) (ht : IsBitStr t) (hl : s.length = t.length)
    (h1 : Carries s 0 id) (h2 : Carries t 0 id) : s = t := by
  apply List.ext_getElem?
  intro i
  by_cases hi : i < s.length
  · have e1 := List.getElem?_eq_getElem hi
    have e2 := List.getElem?_eq_getElem (hl ▸ hi : i < t.length)
    have b1 := hs _ (List.getElem_mem hi)
    have b2 := ht _ (List.getElem_mem (hl ▸ hi : i < t.length))
    have c1 := h1 i _ e1 (by rcases b1 with h | h <;> rw [h] <;> decide)
    have c2 := h2 i _ e2 (by rcases b2 with h | h <;> rw [h] <;> decide)
    rw [e1, e2]
    rcases b1 with h | h <;> rcases b2 with h' | h' <;> rw [h] at c1 ⊢ <;> rw [h'] at c2 ⊢
    · exact absurd (c1.mpr (c2.mp rfl)) (by decide)
    · exact absurd (c2.mpr (c1.mp rfl)) (by decide)
  · rw [List.getElem?_eq_none (by omega), List.getElem?_eq_none (by omega)]

end Gosstrak
