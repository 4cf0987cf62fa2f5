import Verif.Spec.Draws
import Verif.Props.Random

namespace Gosstrak

theorem tossing_ok (x : Binutil) (hx : x.Ok) (d : Toss) (hd : d.Fair) :
    (x.tossing d).Ok ∧ (x.tossing d).Below :=
  ⟨⟨hx.decToBin, hd.bits, hx.sixBit⟩, hd.below⟩

theorem rowFor_length (sc : Scheme) (cp : Str) (h1 : 6 ≤ cp.length) (h2 : cp.length ≤ 12) :
    rowFor sc.table cp.length = some ⟨12 - partitionFor cp, partitionFor cp, companyBits (partitionFor cp),
      sc.width - companyBits (partitionFor cp), sc.refDigits cp⟩ := by
  have h := rowFor_spec sc.isTable (List.replicate cp.length '0')
    ⟨fun c hc => by rw [(List.mem_replicate.mp hc).2]; decide, by rw [List.length_replicate]; exact h1,
      by rw [List.length_replicate]; exact h2⟩
  have e : partitionFor (List.replicate cp.length '0') = partitionFor cp := by
    unfold partitionFor; rw [List.length_replicate]
  rw [e, List.length_replicate] at h
  rw [h]
  cases sc <;> rfl

theorem rowFor_missing (sc : Scheme) (cp : Str) (h : ¬ (6 ≤ cp.length ∧ cp.length ≤ 12)) :
    rowFor sc.table cp.length = none := by
  unfold rowFor
  rw [List.find?_eq_none]
  intro r hr
  have : ∀ r ∈ sc.table, 6 ≤ r.cpLength ∧ r.cpLength ≤ 12 := by cases sc <;> decide
  have := this r hr
  simp only [decide_eq_true_eq]
  omega

/-- the bits for the second field behind this company prefix -/
def Scheme.refBits (sc : Scheme) (cp : Str) : Nat :=
  if 6 ≤ cp.length ∧ cp.length ≤ 12 then sc.width - companyBits (partitionFor cp) else 0

/-- the digits for the second field behind this company prefix -/
def Scheme.refPlaces (sc : Scheme) (cp : Str) : Nat :=
  if 6 ≤ cp.length ∧ cp.length ≤ 12 then sc.refDigits cp else 0

theorem getRef_empty (x : Binutil) (sc : Scheme) (cp : Str) :
    x.getRef [] (rowFor sc.table cp.length) = x.randomBits 1 (sc.refBits cp) (10 ^ sc.refPlaces cp) := by
  unfold Scheme.refBits Scheme.refPlaces
  by_cases h : 6 ≤ cp.length ∧ cp.length ≤ 12
  · rw [if_pos h, if_pos h, rowFor_length sc cp h.1 h.2]; rfl
  · rw [if_neg h, if_neg h, rowFor_missing sc cp h]; rfl

theorem getRef_given (x y : Binutil) (hxy : x.decToBin = y.decToBin) (ref : Str) (r : Option Row) (h : ref ≠ []) :
    x.getRef ref r = y.getRef ref r := by
  unfold Binutil.getRef
  dsimp only
  rw [if_pos h, if_pos h, hxy]

/-- a field that is not left to chance -/
theorem getRef_settled (x : Binutil) (d e : Toss) (hd : d.Fair) (he : e.Fair) (sc : Scheme) (cp ref : Str)
    (h : ¬ (ref = [] ∧ sc.RefVaries cp)) :
    (x.tossing d).getRef ref (rowFor sc.table cp.length) = (x.tossing e).getRef ref (rowFor sc.table cp.length) := by
  by_cases hr : ref = []
  · subst hr
    have hv : sc.refPlaces cp = 0 := by
      unfold Scheme.refPlaces
      by_cases h' : 6 ≤ cp.length ∧ cp.length ≤ 12
      · rw [if_pos h']
        by_cases h0 : 0 < sc.refDigits cp
        · exact absurd ⟨rfl, h'.1, h'.2, h0⟩ h
        · omega
      · rw [if_neg h']
    rw [getRef_empty, getRef_empty, hv]
    show d 1 _ _ = e 1 _ _
    have b1 := hd.below 1 (sc.refBits cp) (10 ^ 0) (by decide)
    have b2 := he.below 1 (sc.refBits cp) (10 ^ 0) (by decide)
    have h1 := hd.bits 1 (sc.refBits cp) (10 ^ 0)
    have h2 := he.bits 1 (sc.refBits cp) (10 ^ 0)
    exact binPadded_unique (sc.refBits cp) 0 _ _ ⟨h1.1, h1.2, by omega⟩ ⟨h2.1, h2.2, by omega⟩
  · exact getRef_given (x.tossing d) (x.tossing e) rfl ref _ hr

theorem getFilter_settled (x : Binutil) (d e : Toss) (fv : Str) (h : fv ≠ []) :
    (x.tossing d).getFilter fv = (x.tossing e).getFilter fv := by
  unfold Binutil.getFilter; rw [if_pos h, if_pos h]

theorem getSerial_settled (x : Binutil) (d e : Toss) (s : Str) (h : s ≠ []) :
    (x.tossing d).getSerial s = (x.tossing e).getSerial s := by
  unfold Binutil.getSerial; rw [if_pos h, if_pos h]; rfl

/-- the filter of a scheme's pattern when there are too few or too many fields -/
theorem encoder_none (x : Binutil) (sc : Scheme) (a b c d e : Str) (l : List Str) :
    x.encoder sc.typeName [] = none ∧ (¬ sc.hasSerial → x.encoder sc.typeName [a, b, c, d] = none) ∧
    x.encoder sc.typeName (a :: b :: c :: d :: e :: l) = none := by
  rw [encoder_scheme, encoder_scheme, encoder_scheme]
  cases sc <;> exact ⟨rfl, fun h => by first | exact absurd trivial h | rfl, rfl⟩

theorem settled_scheme (x : Binutil) (d e : Toss) (hd : d.Fair) (he : e.Fair) (sc : Scheme) (fields : List Str)
    (h : ¬ sc.LeavesOpen fields) :
    (x.tossing d).encoder sc.typeName fields = (x.tossing e).encoder sc.typeName fields := by
  have hc : ∀ c r, (x.tossing d).getCompanyPrefix c r = (x.tossing e).getCompanyPrefix c r := fun _ _ => rfl
  match fields, h with
  | [], _ => rw [(encoder_none _ sc [] [] [] [] [] []).1, (encoder_none _ sc [] [] [] [] [] []).1]
  | [f], h =>
    rw [(encoder_pieces _ sc f [] [] []).1, (encoder_pieces _ sc f [] [] []).1, getFilter_settled x d e f h]
  | [f, c], h =>
    rw [(encoder_pieces _ sc f c [] []).2.1, (encoder_pieces _ sc f c [] []).2.1, getFilter_settled x d e f h, hc]
  | [f, c, r], h =>
    rw [(encoder_pieces _ sc f c r []).2.2.1, (encoder_pieces _ sc f c r []).2.2.1,
      getFilter_settled x d e f (fun hf => h (Or.inl hf)), hc,
      getRef_settled x d e hd he sc c r (fun hr => h (Or.inr hr))]
  | [f, c, r, s], h =>
    by_cases hs : sc.hasSerial
    · rw [(encoder_pieces _ sc f c r s).2.2.2 hs, (encoder_pieces _ sc f c r s).2.2.2 hs,
        getFilter_settled x d e f (fun hf => h ⟨hs, Or.inl hf⟩), hc,
        getRef_settled x d e hd he sc c r (fun hr => h ⟨hs, Or.inr (Or.inl hr)⟩),
        getSerial_settled x d e s (fun hr => h ⟨hs, Or.inr (Or.inr hr)⟩)]
    · rw [(encoder_none _ sc f c r s [] []).2.1 hs, (encoder_none _ sc f c r s [] []).2.1 hs]
  | a :: b :: c :: f :: g :: l, _ =>
    rw [(encoder_none _ sc a b c f g l).2.2, (encoder_none _ sc a b c f g l).2.2]

theorem typeNames (t : Str) : (∃ sc : Scheme, t = sc.typeName) ∨
    (t ≠ "giai-96".toList ∧ t ≠ "grai-96".toList ∧ t ≠ "sgtin-96".toList ∧ t ≠ "sscc-96".toList) := by
  by_cases h1 : t = "giai-96".toList
  · exact Or.inl ⟨.giai, h1⟩
  by_cases h2 : t = "grai-96".toList
  · exact Or.inl ⟨.grai, h2⟩
  by_cases h3 : t = "sgtin-96".toList
  · exact Or.inl ⟨.sgtin, h3⟩
  by_cases h4 : t = "sscc-96".toList
  · exact Or.inl ⟨.sscc, h4⟩
  exact Or.inr ⟨h1, h2, h3, h4⟩

theorem settled_encoder (x : Binutil) (d e : Toss) (hd : d.Fair) (he : e.Fair) (t : Str) (fields : List Str)
    (h : ∀ sc : Scheme, t = sc.typeName → ¬ sc.LeavesOpen fields) :
    (x.tossing d).encoder t fields = (x.tossing e).encoder t fields := by
  rcases typeNames t with ⟨sc, rfl⟩ | ⟨h1, h2, h3, h4⟩
  · exact settled_scheme x d e hd he sc fields (h sc rfl)
  · unfold Binutil.encoder
    simp only [if_neg h1, if_neg h2, if_neg h3, if_neg h4]
    rfl

theorem settled_key (x : Binutil) (d e : Toss) (hd : d.Fair) (he : e.Fair) (pat : Str) (h : ¬ LeftOpen pat) :
    patternKey (x.tossing d).encoder pat = patternKey (x.tossing e).encoder pat := by
  unfold patternKey
  split
  · rename_i t f heq
    rw [settled_encoder x d e hd he t _ ?_]
    rintro sc rfl ho
    exact h ⟨sc, _, ⟨_, f, (stripped_iff _ _ _).mpr rfl, (splitOn_iff _ _ _).mp heq, pieces_splitOn _ _⟩, ho⟩
  · rfl

theorem settled_store (x : Binutil) (d e : Toss) (hd : d.Fair) (he : e.Fair) (uri : Str) (b : FlatSubs) (pat : Str)
    (h : ¬ LeftOpen pat) :
    storePattern (x.tossing d).encoder uri b pat = storePattern (x.tossing e).encoder uri b pat := by
  rw [storePattern_eq, storePattern_eq, settled_key x d e hd he pat h]

/-- `x` with its own draws -/
theorem tossing_self (x : Binutil) : x.tossing x.randomBits = x := rfl

theorem convert_inner (x : Binutil) (hx : Toss.Fair x.randomBits) (ds : Nat → Toss) (hd : ∀ n, (ds n).Fair)
    (uri : Str) : ∀ (pats : List Str) (b : FlatSubs) (n : Nat), (∀ pat ∈ pats, ¬ LeftOpen pat) →
    (pats.foldl (fun b pat => (storePattern (x.tossing (ds b.2)).encoder uri b.1 pat, b.2 + 1)) (b, n)).1 =
      pats.foldl (storePattern x.encoder uri) b
  | [], _, _, _ => rfl
  | p :: pats, b, n, h => by
    rw [List.foldl_cons, List.foldl_cons]
    dsimp only
    rw [convert_inner x hx ds hd uri pats _ _ (fun q hq => h q (List.mem_cons_of_mem _ hq)),
      settled_store x (ds n) x.randomBits (hd n) hx uri b p (h p List.mem_cons_self), tossing_self]

theorem convert_outer (x : Binutil) (hx : Toss.Fair x.randomBits) (ds : Nat → Toss) (hd : ∀ n, (ds n).Fair) :
    ∀ (sub : Subs) (b : FlatSubs) (n : Nat), Settled sub →
    (sub.foldl (fun b e => e.2.foldl (fun b pat =>
      (storePattern (x.tossing (ds b.2)).encoder e.1 b.1 pat, b.2 + 1)) b) (b, n)).1 =
      sub.foldl (fun b e => e.2.foldl (storePattern x.encoder e.1) b) b
  | [], _, _, _ => rfl
  | e :: sub, b, n, h => by
    rw [List.foldl_cons, List.foldl_cons]
    have h1 := convert_inner x hx ds hd e.1 e.2 b n (h e List.mem_cons_self)
    rw [← h1]
    generalize (e.2.foldl (fun b pat => (storePattern (x.tossing (ds b.2)).encoder e.1 b.1 pat, b.2 + 1)) (b, n)) = s
    exact convert_outer x hx ds hd sub s.1 s.2 (fun e' he' => h e' (List.mem_cons_of_mem _ he'))

theorem convert_settled (x : Binutil) (hx : Toss.Fair x.randomBits) (ds : Nat → Toss) (hd : ∀ n, (ds n).Fair)
    (sub : Subs) (h : Settled sub) : x.convert ds sub = toByteSubscriptions x.encoder sub :=
  convert_outer x hx ds hd sub [] 0 h

/-! ### patterns that leave a field to chance -/

theorem zeroToss_fair : zeroToss.Fair where
  bits := fun _ n _ => ⟨isBitStr_zeros n, List.length_replicate⟩
  below := fun _ n m h => by
    have : binVal (zeroToss 0 n m) = 0 := binVal_zeros n
    show binVal (zeroToss 0 n m) < m
    omega

theorem oneToss_padded (i n m : Nat) (hm : 2 ≤ m) (hn : 0 < n) : BinPadded n 1 (oneToss i n m) := by
  unfold oneToss
  rw [if_pos ⟨hm, hn⟩]
  refine ⟨?_, ?_, ?_⟩
  · intro c hc
    rcases List.mem_append.mp hc with h | h
    · exact Or.inl (List.mem_replicate.mp h).2
    · exact Or.inr (List.mem_singleton.mp h)
  · rw [List.length_append, List.length_replicate, List.length_singleton]; omega
  · rw [binVal_append]
    have : binVal (List.replicate (n - 1) '0') = 0 := binVal_zeros (n - 1)
    rw [this]
    rfl

theorem oneToss_fair : oneToss.Fair := by
  have key : ∀ i n m, oneToss i n m = zeroToss i n m ∨ (2 ≤ m ∧ BinPadded n 1 (oneToss i n m)) := by
    intro i n m
    by_cases h : 2 ≤ m ∧ 0 < n
    · exact Or.inr ⟨h.1, oneToss_padded i n m h.1 h.2⟩
    · left; unfold oneToss; rw [if_neg h]; rfl
  constructor
  · intro i n m
    rcases key i n m with h | ⟨_, h⟩
    · rw [h]; exact zeroToss_fair.bits i n m
    · exact ⟨h.1, h.2.1⟩
  · intro i n m hm
    rcases key i n m with h | ⟨h', h⟩
    · rw [h]; exact zeroToss_fair.below i n m hm
    · rw [h.2.2]; omega

theorem toss_differ (i n m : Nat) (hm : 2 ≤ m) (hn : 0 < n) : zeroToss i n m ≠ oneToss i n m := by
  intro h
  have h1 := (oneToss_padded i n m hm hn).2.2
  have h0 : binVal (zeroToss i n m) = 0 := binVal_zeros n
  rw [← h, h0] at h1
  exact absurd h1 (by decide)

theorem getFilter_length (x : Binutil) (d e : Toss) (hd : d.Fair) (he : e.Fair) (fv : Str) :
    ((x.tossing d).getFilter fv).length = ((x.tossing e).getFilter fv).length := by
  by_cases h : fv = []
  · subst h
    exact (hd.bits 0 3 7).2.trans (he.bits 0 3 7).2.symm
  · rw [getFilter_settled x d e fv h]

theorem getRef_length (x : Binutil) (d e : Toss) (hd : d.Fair) (he : e.Fair) (sc : Scheme) (cp ref : Str) :
    ((x.tossing d).getRef ref (rowFor sc.table cp.length)).length =
      ((x.tossing e).getRef ref (rowFor sc.table cp.length)).length := by
  by_cases h : ref = []
  · subst h
    rw [getRef_empty, getRef_empty]
    exact (hd.bits 1 _ _).2.trans (he.bits 1 _ _).2.symm
  · rw [getRef_given (x.tossing d) (x.tossing e) rfl ref _ h]

theorem refVaries_bits (sc : Scheme) (cp : Str) (h : sc.RefVaries cp) :
    0 < sc.refBits cp ∧ 2 ≤ 10 ^ sc.refPlaces cp := by
  obtain ⟨h1, h2, h3⟩ := h
  unfold Scheme.refBits Scheme.refPlaces
  rw [if_pos ⟨h1, h2⟩, if_pos ⟨h1, h2⟩]
  constructor
  · have hb : ∀ p < 7, companyBits p ≤ 40 := by decide
    have := hb (partitionFor cp) (by unfold partitionFor; omega)
    have := sc.width_bounds
    omega
  · obtain ⟨k, hk⟩ := Nat.exists_eq_add_of_lt h3
    rw [hk, Nat.zero_add, Nat.pow_succ]
    have : 0 < 10 ^ k := Nat.pow_pos (by decide)
    omega

theorem getFilter_open (x : Binutil) :
    (x.tossing zeroToss).getFilter [] ≠ (x.tossing oneToss).getFilter [] := toss_differ 0 3 7 (by decide) (by decide)

theorem getRef_open (x : Binutil) (sc : Scheme) (cp : Str) (h : sc.RefVaries cp) :
    (x.tossing zeroToss).getRef [] (rowFor sc.table cp.length) ≠
      (x.tossing oneToss).getRef [] (rowFor sc.table cp.length) := by
  rw [getRef_empty, getRef_empty]
  exact toss_differ 1 _ _ (refVaries_bits sc cp h).2 (refVaries_bits sc cp h).1

theorem getSerial_empty (x : Binutil) (d : Toss) : (x.tossing d).getSerial [] = d 2 38 (2 ^ 38) := by
  unfold Binutil.getSerial
  rw [if_neg (fun h => h rfl)]
  rfl

theorem getSerial_open (x : Binutil) :
    (x.tossing zeroToss).getSerial [] ≠ (x.tossing oneToss).getSerial [] := by
  rw [getSerial_empty, getSerial_empty]
  exact toss_differ 2 38 (2 ^ 38) (by decide) (by decide)

/-- the filters of an open pattern for the two generators -/
theorem open_scheme (x : Binutil) (sc : Scheme) (fields : List Str) (h : sc.LeavesOpen fields) :
    ∃ s t, (x.tossing zeroToss).encoder sc.typeName fields = some s ∧
      (x.tossing oneToss).encoder sc.typeName fields = some t ∧ s ≠ t ∧ s.length = t.length := by
  have hF := getFilter_length x zeroToss oneToss zeroToss_fair oneToss_fair
  have hR := getRef_length x zeroToss oneToss zeroToss_fair oneToss_fair sc
  have hc : ∀ c r, (x.tossing zeroToss).getCompanyPrefix c r = (x.tossing oneToss).getCompanyPrefix c r :=
    fun _ _ => rfl
  have hS : ∀ s, ((x.tossing zeroToss).getSerial s).length = ((x.tossing oneToss).getSerial s).length := by
    intro s
    by_cases hs : s = []
    · subst hs; rw [getSerial_empty, getSerial_empty]; exact (zeroToss_fair.bits 2 38 _).2.trans (oneToss_fair.bits 2 38 _).2.symm
    · rw [getSerial_settled x zeroToss oneToss s hs]
  match fields, h with
  | [f], h =>
    refine ⟨_, _, (encoder_pieces _ sc f [] [] []).1, (encoder_pieces _ sc f [] [] []).1, fun he => ?_, ?_⟩
    · have he := List.append_cancel_left he
      have h' : f = [] := h
      subst h'
      exact getFilter_open x he
    · rw [List.length_append, List.length_append, hF]
  | [f, c], h =>
    refine ⟨_, _, (encoder_pieces _ sc f c [] []).2.1, (encoder_pieces _ sc f c [] []).2.1, fun he => ?_, ?_⟩
    · rw [hc] at he
      have he := List.append_cancel_left (List.append_cancel_right (List.append_cancel_right he))
      have h' : f = [] := h
      subst h'
      exact getFilter_open x he
    · simp only [List.length_append, hF, hc]
  | [f, c, r], h =>
    refine ⟨_, _, (encoder_pieces _ sc f c r []).2.2.1, (encoder_pieces _ sc f c r []).2.2.1, fun he => ?_, ?_⟩
    · rw [hc] at he
      obtain ⟨he, hr⟩ := List.append_inj' he (hR c r)
      have he := List.append_cancel_left (List.append_cancel_right (List.append_cancel_right he))
      rcases h with rfl | ⟨rfl, hv⟩
      · exact getFilter_open x he
      · exact getRef_open x sc c hv hr
    · simp only [List.length_append, hF, hc, hR]
  | [f, c, r, s], ⟨hs, h⟩ =>
    refine ⟨_, _, (encoder_pieces _ sc f c r s).2.2.2 hs, (encoder_pieces _ sc f c r s).2.2.2 hs, fun he => ?_, ?_⟩
    · rw [hc] at he
      obtain ⟨he, hsr⟩ := List.append_inj' he (hS s)
      obtain ⟨he, hr⟩ := List.append_inj' he (hR c r)
      have he := List.append_cancel_left (List.append_cancel_right (List.append_cancel_right he))
      rcases h with rfl | ⟨rfl, hv⟩ | rfl
      · exact getFilter_open x he
      · exact getRef_open x sc c hv hr
      · exact getSerial_open x hsr
    · simp only [List.length_append, hF, hc, hR, hS]

/-- the conversion of one pattern -/
theorem toByte_single (mk : Encoder) (uri pat : Str) :
    toByteSubscriptions mk [(uri, [pat])] = match patternKey mk pat with
      | some k => [(k, uri)]
      | none => [] := by
  show storePattern mk uri [] pat = _
  rw [storePattern_eq]
  cases patternKey mk pat <;> rfl

theorem convert_single (x : Binutil) (ds : Nat → Toss) (uri pat : Str) :
    x.convert ds [(uri, [pat])] = toByteSubscriptions (x.tossing (ds 0)).encoder [(uri, [pat])] := rfl

theorem exactMatches_single (k uri : Str) : exactMatches [(k, uri)] = [(newFilter k 0, uri)] := by
  unfold exactMatches
  have e : mapKeys [(k, uri)] = [k] := rfl
  rw [e]
  simp [mapGet]

end Gosstrak
