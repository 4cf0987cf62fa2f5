import Verif.Proofs.DrawsFill

/-! C104: patterns with fields left out are converted anew, with other values, at every call. -/
namespace Gosstrak

/-- Subscriptions in which no pattern leaves a field to chance are converted to the same map whatever is
    drawn, for every pattern and every call on its own: to that of `toByteSubscriptions`, in which
    the encoder is a function. -/
theorem C104_settled (x : Binutil) (hx : Toss.Fair x.randomBits) (ds : Nat → Toss) (hd : ∀ n, (ds n).Fair)
    (sub : Subs) (h : Settled sub) : x.convert ds sub = toByteSubscriptions x.encoder sub :=
  convert_settled x hx ds hd sub h

/-- So a list after calls with such subscriptions is the list of the other theorems. -/
theorem C104_settled_list (x : Binutil) (hx : Toss.Fair x.randomBits) (ds : Nat → Nat → Toss)
    (hd : ∀ n m, (ds n m).Fair) (sub : Subs) (h : Settled sub) (ops : List SubsOp)
    (ho : ∀ op ∈ ops, Settled op.subs) :
    ListEngine.runDrawn x ds sub ops = ops.foldl (ListEngine.apply x.encoder) (newList x.encoder sub) := by
  unfold ListEngine.runDrawn newList
  rw [C104_settled x hx (ds 0) (hd 0) sub h]
  generalize exactMatches (toByteSubscriptions x.encoder sub) = l
  suffices H : ∀ n l, (ops.foldl (fun s op => (ListEngine.applyDrawn x (ds s.2) s.1 op, s.2 + 1)) (l, n)).1 =
      ops.foldl (ListEngine.apply x.encoder) l from H 1 l
  clear l
  induction ops with
  | nil => intro n l; rfl
  | cons op ops ih =>
    intro n l
    rw [List.foldl_cons, List.foldl_cons, ih (fun o h => ho o (List.mem_cons_of_mem _ h))]
    have hop := C104_settled x hx (ds n) (hd n) op.subs (ho op List.mem_cons_self)
    cases op <;> simp only [SubsOp.subs] at hop <;>
      simp only [ListEngine.applyDrawn, ListEngine.apply, ListEngine.addSubscription,
        ListEngine.deleteSubscription, hop]

/-- The same for the Patricia trie. -/
theorem C104_settled_patricia (x : Binutil) (hx : Toss.Fair x.randomBits) (ds : Nat → Nat → Toss)
    (hd : ∀ n m, (ds n m).Fair) (sub : Subs) (h : Settled sub) (ops : List SubsOp)
    (ho : ∀ op ∈ ops, Settled op.subs) :
    PNode.runDrawn x ds sub ops = ops.foldl (PNode.applyOp x.encoder) (newPatricia x.encoder sub) := by
  unfold PNode.runDrawn newPatricia
  rw [C104_settled x hx (ds 0) (hd 0) sub h]
  generalize newPatriciaFrom (toByteSubscriptions x.encoder sub) = l
  suffices H : ∀ n l, (ops.foldl (fun s op => (PNode.applyDrawn x (ds s.2) s.1 op, s.2 + 1)) (l, n)).1 =
      ops.foldl (PNode.applyOp x.encoder) l from H 1 l
  clear l
  induction ops with
  | nil => intro n l; rfl
  | cons op ops ih =>
    intro n l
    rw [List.foldl_cons, List.foldl_cons, ih (fun o h => ho o (List.mem_cons_of_mem _ h))]
    have hop := C104_settled x hx (ds n) (hd n) op.subs (ho op List.mem_cons_self)
    cases op <;> simp only [SubsOp.subs] at hop <;>
      simp only [PNode.applyDrawn, PNode.applyOp, PNode.addSubscription, PNode.deleteSubscription, hop]

/-- The same for the splay tree, with searches among the calls. -/
theorem C104_settled_splay (x : Binutil) (hx : Toss.Fair x.randomBits) (ds : Nat → Nat → Toss)
    (hd : ∀ n m, (ds n m).Fair) (sub : Subs) (h : Settled sub) (ops : List SplayCall)
    (ho : ∀ op ∈ ops, Settled op.subs) :
    SNode.runDrawn x ds sub ops = (newSplay x.encoder sub).bind fun t => ops.foldlM (SNode.applyCall x.encoder) t := by
  unfold SNode.runDrawn newSplay
  rw [C104_settled x hx (ds 0) (hd 0) sub h]
  congr 1
  funext t
  suffices H : ∀ n t, (ops.foldlM (fun (s : SNode × Nat) op =>
      (SNode.applyDrawn x (ds s.2) s.1 op).map fun t => (t, s.2 + 1)) (t, n)).map Prod.fst =
      ops.foldlM (SNode.applyCall x.encoder) t from H 1 t
  clear t
  induction ops with
  | nil => intro n t; rfl
  | cons op ops ih =>
    intro n t
    have hop := C104_settled x hx (ds n) (hd n) op.subs (ho op List.mem_cons_self)
    have e : SNode.applyDrawn x (ds n) t op = SNode.applyCall x.encoder t op := by
      cases op <;> simp only [SplayCall.subs] at hop <;>
        simp only [SNode.applyDrawn, SNode.applyCall, SNode.addSubscription, SNode.deleteSubscription, hop]
    rw [List.foldlM_cons, List.foldlM_cons]
    dsimp only
    rw [e]
    cases hc : SNode.applyCall x.encoder t op with
    | none => rfl
    | some t' =>
      have := ih (fun o h => ho o (List.mem_cons_of_mem _ h)) (n + 1) t'
      simpa using this

/-- a pattern of a scheme whose fields are digits leaves something to chance exactly if its fields do -/
theorem leftOpen_digits (sc : Scheme) (fields : List Str) (hne : fields ≠ []) (hd : ∀ f ∈ fields, IsDigits f) :
    LeftOpen (sc.patternText fields) ↔ sc.LeavesOpen fields := by
  have hp := pattern_digits sc fields hne hd
  constructor
  · rintro ⟨sc', fields', h1, h2⟩
    obtain ⟨b1, f1, s1, s2, s3⟩ := h1
    obtain ⟨b2, f2, t1, t2, t3⟩ := hp
    rw [stripped_iff] at s1 t1
    rw [s1] at t1
    subst t1
    rw [← splitOn_iff] at s2 s3 t2 t3
    rw [s2] at t2
    simp only [List.cons.injEq, and_true] at t2
    obtain ⟨e1, e2⟩ := t2
    subst e2
    rw [s3] at t3
    subst t3
    have : sc' = sc := by
      cases sc <;> cases sc' <;> first | rfl | exact absurd e1 (by decide)
    subst this
    exact h2
  · exact fun h => ⟨sc, fields, hp, h⟩

/-- `boundedBinutil` keeps to what is expected of a generator -/
theorem boundedBinutil_fair : Toss.Fair boundedBinutil.randomBits :=
  ⟨boundedBinutil_ok.1.randomBits, boundedBinutil_ok.2⟩

example : Settled [("http://a".toList, [Scheme.sgtin.patternText ["3".toList, "0614141".toList]]),
      ("http://b".toList, [Scheme.giai.patternText ["0".toList, "0614141".toList, "77".toList]])] ∧
    toByteSubscriptions boundedBinutil.encoder
      [("http://a".toList, [Scheme.sgtin.patternText ["3".toList, "0614141".toList]]),
       ("http://b".toList, [Scheme.giai.patternText ["0".toList, "0614141".toList, "77".toList]])] ≠ [] := by
  refine ⟨?_, by decide +kernel⟩
  intro e he pat hp
  simp only [List.mem_cons, List.not_mem_nil, or_false] at he
  rcases he with rfl | rfl <;> simp only [List.mem_cons, List.not_mem_nil, or_false] at hp <;> subst hp
  · rw [leftOpen_digits _ _ (by decide) (by decide)]
    intro h
    exact absurd (show "3".toList = [] from h) (by decide)
  · rw [leftOpen_digits _ _ (by decide) (by decide)]
    rintro (h | ⟨h, -⟩)
    · exact absurd h (by decide)
    · exact absurd h (by decide)

/-- two draws that a pattern with a field left to chance tells apart -/
theorem open_differ (x : Binutil) (pat : Str) (h : LeftOpen pat) : ∃ s t,
    patternKey (x.tossing zeroToss).encoder pat = some s ∧
    patternKey (x.tossing oneToss).encoder pat = some t ∧ s ≠ t := by
  obtain ⟨sc, fields, h1, h2⟩ := h
  obtain ⟨s, t, a1, a2, a3, -⟩ := open_scheme x sc fields h2
  exact ⟨s, t, (patternKey_iff _ _ _).mpr ⟨_, _, h1, Or.inl a1⟩, (patternKey_iff _ _ _).mpr ⟨_, _, h1, Or.inl a2⟩, a3⟩

/-- A pattern is converted to the same filter at every call exactly if it leaves nothing to chance. -/
theorem C104_open_iff (x : Binutil) (uri pat : Str) :
    (∀ ds es : Nat → Toss, (∀ n, (ds n).Fair) → (∀ n, (es n).Fair) →
      x.convert ds [(uri, [pat])] = x.convert es [(uri, [pat])]) ↔ ¬ LeftOpen pat := by
  constructor
  · intro h ho
    obtain ⟨s, t, h1, h2, h3⟩ := open_differ x pat ho
    have := h (fun _ => zeroToss) (fun _ => oneToss) (fun _ => zeroToss_fair) (fun _ => oneToss_fair)
    rw [convert_single, convert_single, toByte_single, toByte_single, h1, h2] at this
    simp only [List.cons.injEq, Prod.mk.injEq, and_true] at this
    exact h3 this
  · intro h ds es hd he
    rw [convert_single, convert_single, toByte_single, toByte_single,
      settled_key x (ds 0) (es 0) (hd 0) (he 0) pat h]

example : LeftOpen "urn:epc:pat:sgtin-96:.0614141".toList ∧ LeftOpen "urn:epc:pat:grai-96:3.0614141.12345.".toList ∧
    LeftOpen "urn:epc:pat:sscc-96:3.0614141.".toList ∧ ¬ LeftOpen "urn:epc:pat:grai-96:3.061414112345.".toList := by
  refine ⟨?_, ?_, ?_, ?_⟩
  · exact (leftOpen_digits .sgtin [[], "0614141".toList] (by decide) (by decide)).mpr rfl
  · exact (leftOpen_digits .grai ["3".toList, "0614141".toList, "12345".toList, []] (by decide) (by decide)).mpr
      ⟨trivial, Or.inr (Or.inr rfl)⟩
  · exact (leftOpen_digits .sscc ["3".toList, "0614141".toList, []] (by decide) (by decide)).mpr
      (Or.inr ⟨rfl, by decide, by decide, by decide⟩)
  · refine fun h => ?_
    rcases (leftOpen_digits .grai ["3".toList, "061414112345".toList, []] (by decide) (by decide)).mp h with h | ⟨-, h⟩
    · exact absurd h (by decide)
    · exact absurd h.2.2 (by decide)

/-- A subscription that was added to a list is gone after it was deleted, whatever is drawn, exactly if
    its pattern leaves nothing to chance. Otherwise the deletion may look for another filter. -/
theorem C104_delete_iff (x : Binutil) (uri pat : Str) :
    (∀ ds : Nat → Nat → Toss, (∀ n m, (ds n m).Fair) →
      ListEngine.runDrawn x ds [] [.add [(uri, [pat])], .delete [(uri, [pat])]] = []) ↔ ¬ LeftOpen pat := by
  have run : ∀ ds, ListEngine.runDrawn x ds [] [.add [(uri, [pat])], .delete [(uri, [pat])]] =
    ListEngine.applyDrawn x (ds 2) (ListEngine.applyDrawn x (ds 1) [] (.add [(uri, [pat])]))
      (.delete [(uri, [pat])]) := fun _ => rfl
  simp only [run]
  constructor
  · intro h ho
    obtain ⟨s, t, h1, h2, h3⟩ := open_differ x pat ho
    have this : ListEngine.applyDrawn x (fun _ => oneToss)
        (ListEngine.applyDrawn x (fun _ => zeroToss) [] (.add [(uri, [pat])])) (.delete [(uri, [pat])]) = [] :=
      h (fun n _ => if n = 1 then zeroToss else oneToss) (fun n _ => by
        split
        · exact zeroToss_fair
        · exact oneToss_fair)
    unfold ListEngine.applyDrawn at this
    dsimp only at this
    rw [convert_single, convert_single, toByte_single, toByte_single, h1, h2] at this
    dsimp only at this
    rw [exactMatches_single, exactMatches_single, List.foldl_cons, List.foldl_cons, List.foldl_nil, List.foldl_nil,
      deleteOne_eq, addOne_eq, if_neg (by simp), List.nil_append] at this
    have hne : (newFilter s 0, uri) ≠ (newFilter t 0, uri) := by
      intro he
      have he := congrArg (fun p : FilterObject × Str => p.1.str) he
      simp only [newFilter_str] at he
      exact h3 he
    rw [List.erase_of_not_mem (by simpa using hne.symm)] at this
    simp at this
  · intro h ds hd
    unfold ListEngine.applyDrawn
    dsimp only
    rw [convert_single, convert_single, toByte_single, toByte_single,
      settled_key x (ds 1 0) (ds 2 0) (hd 1 0) (hd 2 0) pat h]
    cases patternKey (x.tossing (ds 2 0)).encoder pat with
    | none => rfl
    | some k =>
      dsimp only
      rw [exactMatches_single, List.foldl_cons, List.foldl_cons, List.foldl_nil, List.foldl_nil,
        deleteOne_eq, addOne_eq, if_neg (by simp), List.nil_append]
      simp

/-- Added twice, a subscription is in the list no more than once, whatever is drawn, exactly if its
    pattern leaves nothing to chance. -/
theorem C104_twice_iff (x : Binutil) (uri pat : Str) :
    (∀ ds : Nat → Nat → Toss, (∀ n m, (ds n m).Fair) →
      (ListEngine.runDrawn x ds [(uri, [pat])] [.add [(uri, [pat])]]).length ≤ 1) ↔ ¬ LeftOpen pat := by
  have run : ∀ ds, ListEngine.runDrawn x ds [(uri, [pat])] [.add [(uri, [pat])]] =
    ListEngine.applyDrawn x (ds 1) (exactMatches (x.convert (ds 0) [(uri, [pat])])) (.add [(uri, [pat])]) := fun _ => rfl
  simp only [run]
  constructor
  · intro h ho
    obtain ⟨s, t, h1, h2, h3⟩ := open_differ x pat ho
    have this : (ListEngine.applyDrawn x (fun _ => oneToss)
        (exactMatches (x.convert (fun _ => zeroToss) [(uri, [pat])])) (.add [(uri, [pat])])).length ≤ 1 :=
      h (fun n _ => if n = 0 then zeroToss else oneToss) (fun n _ => by
        split
        · exact zeroToss_fair
        · exact oneToss_fair)
    unfold ListEngine.applyDrawn at this
    dsimp only at this
    rw [convert_single, convert_single, toByte_single, toByte_single, h1, h2] at this
    dsimp only at this
    have hne : (newFilter t 0, uri) ≠ (newFilter s 0, uri) := by
      intro he
      have he := congrArg (fun p : FilterObject × Str => p.1.str) he
      simp only [newFilter_str] at he
      exact h3 he.symm
    rw [exactMatches_single, exactMatches_single, List.foldl_cons, List.foldl_nil, addOne_eq,
      if_neg (by simpa using hne)] at this
    simp at this
  · intro h ds hd
    unfold ListEngine.applyDrawn
    dsimp only
    rw [convert_single, convert_single, toByte_single, toByte_single,
      settled_key x (ds 0 0) (ds 1 0) (hd 0 0) (hd 1 0) pat h]
    cases patternKey (x.tossing (ds 1 0)).encoder pat with
    | none => exact Nat.zero_le _
    | some k =>
      dsimp only
      rw [exactMatches_single, List.foldl_cons, List.foldl_nil, addOne_eq, if_pos (by simp)]
      exact Nat.le_refl _

example : ListEngine.applyDrawn boundedBinutil (fun _ => oneToss)
      (ListEngine.applyDrawn boundedBinutil (fun _ => zeroToss) []
        (.add [("http://a".toList, ["urn:epc:pat:sgtin-96:".toList])]))
      (.delete [("http://a".toList, ["urn:epc:pat:sgtin-96:".toList])]) =
    [(newFilter "00110000000".toList 0, "http://a".toList)] := by decide +kernel

/-- What a conversion of a pattern with fields left out gives: exactly the conversions of the patterns in
    which well-formed values are put in for them, up to 6 for the filter value. -/
theorem C104_choices (x : Binutil) (hx : x.Ok) (uri : Str) (sc : Scheme) (fields : List Str)
    (h : sc.Fillable fields) (b : FlatSubs) :
    (∃ ds : Nat → Toss, (∀ n, (ds n).Fair) ∧ x.convert ds [(uri, [sc.patternText fields])] = b) ↔
    ∃ fields', sc.Fills fields fields' ∧ b = toByteSubscriptions x.encoder [(uri, [sc.patternText fields'])] := by
  obtain ⟨hne, hdig⟩ := fillable_digits sc fields h
  have conv : ∀ (d : Toss) fields', sc.Fills fields fields' →
      (x.tossing d).encoder sc.typeName fields = x.encoder sc.typeName fields' →
      toByteSubscriptions (x.tossing d).encoder [(uri, [sc.patternText fields])] =
        toByteSubscriptions x.encoder [(uri, [sc.patternText fields'])] := by
    intro d fields' hf he
    have hw := fills_wellFormed sc fields fields' h hf
    obtain ⟨s, hs, -⟩ := encoder_carries x hx sc fields' (wellFormed_encodable sc fields' hw)
    obtain ⟨n', d'⟩ := wellFormed_digits sc fields' hw
    rw [toByte_digits _ uri sc fields' n' d' s hs, toByte_digits _ uri sc fields hne hdig s (by rw [he]; exact hs)]
  constructor
  · rintro ⟨ds, hd, rfl⟩
    obtain ⟨fields', h1, h2⟩ := encoder_fill x hx (ds 0) (hd 0) sc fields h
    exact ⟨fields', h1, by rw [convert_single]; exact conv _ _ h1 h2⟩
  · rintro ⟨fields', h1, rfl⟩
    obtain ⟨d, h2, h3⟩ := encoder_choice x hx sc fields fields' h h1
    exact ⟨fun _ => d, fun _ => h2, by rw [convert_single]; exact conv _ _ h1 h3⟩

example : Scheme.sgtin.Fillable [[], "0614141".toList] ∧
    Scheme.sgtin.Fills [[], "0614141".toList] ["5".toList, "0614141".toList] ∧
    ¬ Scheme.sgtin.Fills [[], "0614141".toList] ["7".toList, "0614141".toList] := by
  refine ⟨⟨Or.inl rfl, by decide⟩, ⟨?_, rfl⟩, ?_⟩
  · unfold FilledIn; rw [if_pos rfl]; decide
  · rintro ⟨h, -⟩
    unfold FilledIn at h
    rw [if_pos rfl] at h
    exact absurd h.2 (by decide)

/-- For all subscriptions of a call: the patterns draw independently of each other, so the possible
    conversions are exactly those of the subscriptions with the patterns filled in one by one. -/
theorem C104_all_choices (x : Binutil) (hx : x.Ok) (hb : Toss.Fair x.randomBits) (sub : Subs)
    (h : FillableSubs sub) (b : FlatSubs) :
    (∃ ds : Nat → Toss, (∀ n, (ds n).Fair) ∧ x.convert ds sub = b) ↔
    ∃ sub', FillsSubs sub sub' ∧ b = toByteSubscriptions x.encoder sub' := by
  constructor
  · rintro ⟨ds, hd, rfl⟩
    obtain ⟨sub', h1, h2⟩ := subs_fill x hx hb ds hd sub ([], 0) h
    exact ⟨sub', h1, h2⟩
  · rintro ⟨sub', h1, rfl⟩
    obtain ⟨ds, hd, h2⟩ := subs_choice x hx hb sub sub' ([], 0) h1 h
    exact ⟨ds, hd, h2⟩

/-- So one pattern with two URIs, of which one is lost otherwise (C12), may keep both. -/
example : FillableSubs [("http://a".toList, ["urn:epc:pat:sgtin-96:".toList]), ("http://b".toList, ["urn:epc:pat:sgtin-96:".toList])] ∧
    FillsSubs [("http://a".toList, ["urn:epc:pat:sgtin-96:".toList]), ("http://b".toList, ["urn:epc:pat:sgtin-96:".toList])]
      [("http://a".toList, ["urn:epc:pat:sgtin-96:2".toList]), ("http://b".toList, ["urn:epc:pat:sgtin-96:6".toList])] ∧
    toByteSubscriptions boundedBinutil.encoder
      [("http://a".toList, ["urn:epc:pat:sgtin-96:2".toList]), ("http://b".toList, ["urn:epc:pat:sgtin-96:6".toList])] =
      [("00110000010".toList, "http://a".toList), ("00110000110".toList, "http://b".toList)] := by
  have hp : ∀ v : Str, IsFilterValue v → decVal v < 7 →
      FillsPattern "urn:epc:pat:sgtin-96:".toList (Scheme.sgtin.patternText [v]) := by
    intro v h1 h2
    refine Or.inl ⟨.sgtin, [[]], [v], Or.inl rfl, ?_, by decide +kernel, rfl⟩
    show FilledIn (fun v => IsFilterValue v ∧ decVal v < 7) [] v
    unfold FilledIn
    rw [if_pos rfl]
    exact ⟨h1, h2⟩
  refine ⟨?_, ⟨rfl, ⟨hp "2".toList (by decide) (by decide), trivial⟩, rfl, ⟨hp "6".toList (by decide) (by decide), trivial⟩, trivial⟩,
    by decide +kernel⟩
  intro e he pat hpat
  simp only [List.mem_cons, List.not_mem_nil, or_false] at he
  rcases he with rfl | rfl <;> simp only [List.mem_cons, List.not_mem_nil, or_false] at hpat <;> subst hpat <;>
    exact Or.inr ⟨.sgtin, [[]], Or.inl rfl, by decide +kernel⟩

/-- So a list with such a subscription reports exactly the tags of 12 bytes that have the values given
    and the values drawn. -/
theorem C104_selects (x : Binutil) (hx : x.Ok) (uri : Str) (sc : Scheme) (fields : List Str)
    (h : sc.Fillable fields) (ds : Nat → Toss) (hd : ∀ n, (ds n).Fair) :
    ∃ fields', sc.Fills fields fields' ∧ ∀ id : List Byte, id.length = 12 →
      ((exactMatches (x.convert ds [(uri, [sc.patternText fields])])).matches id = some [uri] ↔ sc.Has id fields') ∧
      ((exactMatches (x.convert ds [(uri, [sc.patternText fields])])).matches id = some [] ↔ ¬ sc.Has id fields') := by
  obtain ⟨hne, hdig⟩ := fillable_digits sc fields h
  obtain ⟨fields', h1, h2⟩ := encoder_fill x hx (ds 0) (hd 0) sc fields h
  have hw := fills_wellFormed sc fields fields' h h1
  obtain ⟨s, hs, hm⟩ := C40_selects x hx sc fields' (wellFormed_encodable sc fields' hw)
  refine ⟨fields', h1, fun id hl => ?_⟩
  rw [convert_single, toByte_digits _ uri sc fields hne hdig s (by rw [h2]; exact hs), exactMatches_single]
  have hm := hm id hl
  unfold ListEngine.matches ListEngine.matches
  by_cases hh : sc.Has id fields'
  · rw [hm.1.mpr hh]
    simp [hh]
  · rw [hm.2.mpr hh]
    simp [hh]

/-- In particular a pattern that leaves a field to chance never stands for all tags with the values that
    are given: whatever is drawn, some tag with well-formed values for the others is not reported, and
    is reported with other draws. -/
theorem C104_misses (x : Binutil) (hx : x.Ok) (uri : Str) (sc : Scheme) (fields : List Str)
    (h : sc.Fillable fields) (ho : sc.LeavesOpen fields) (ds : Nat → Toss) (hd : ∀ n, (ds n).Fair) :
    ∃ fields' id, sc.Fills fields fields' ∧ id.length = 12 ∧ sc.Has id fields' ∧
      (exactMatches (x.convert ds [(uri, [sc.patternText fields])])).matches id = some [] ∧
      ∃ es : Nat → Toss, (∀ n, (es n).Fair) ∧
        (exactMatches (x.convert es [(uri, [sc.patternText fields])])).matches id = some [uri] := by
  obtain ⟨hne, hdig⟩ := fillable_digits sc fields h
  -- what a draw stands for
  have stands : ∀ d : Toss, d.Fair → ∃ s fields', sc.Fills fields fields' ∧
      (x.tossing d).encoder sc.typeName fields = some s ∧ IsBitStr s ∧ s.length ≤ 96 ∧
      ∀ id : List Byte, id.length = 12 → (Carries s 0 id ↔ sc.Has id fields') := by
    intro d hd
    obtain ⟨fields', h1, h2⟩ := encoder_fill x hx d hd sc fields h
    have hw := fills_wellFormed sc fields fields' h h1
    obtain ⟨s, k1, k2, -, k4, k5⟩ := encoder_carries x hx sc fields' (wellFormed_encodable sc fields' hw)
    exact ⟨s, fields', h1, by rw [h2]; exact k1, k2, k4, fun id hl => k5 id (by omega)⟩
  have reports : ∀ (es : Nat → Toss) (s : Str), (x.tossing (es 0)).encoder sc.typeName fields = some s →
      IsBitStr s → s.length ≤ 96 → ∀ id : List Byte, id.length = 12 →
      (Carries s 0 id →
        (exactMatches (x.convert es [(uri, [sc.patternText fields])])).matches id = some [uri]) ∧
      (¬ Carries s 0 id →
        (exactMatches (x.convert es [(uri, [sc.patternText fields])])).matches id = some []) := by
    intro es s hs hb hl id hid
    rw [convert_single, toByte_digits _ uri sc fields hne hdig s hs, exactMatches_single]
    have hm := C01_match_iff_carries s hb.filterStr 0 id ⟨by omega, by omega⟩
    unfold ListEngine.matches ListEngine.matches
    exact ⟨fun hc => by rw [hm.1.mpr hc]; rfl, fun hc => by rw [hm.2.mpr hc]; rfl⟩
  obtain ⟨u, -, -, u2, u3, u4, -⟩ := stands (ds 0) (hd 0)
  -- some other draw has another filter
  obtain ⟨d, hd', s, hs, hsu⟩ : ∃ d : Toss, d.Fair ∧ ∃ s, (x.tossing d).encoder sc.typeName fields = some s ∧ s ≠ u := by
    obtain ⟨s, t, a1, a2, a3, -⟩ := open_scheme x sc fields ho
    by_cases hu : s = u
    · exact ⟨oneToss, oneToss_fair, t, a2, fun ht => a3 (hu.trans ht.symm)⟩
    · exact ⟨zeroToss, zeroToss_fair, s, a1, hu⟩
  obtain ⟨s', fields', b1, b2, b3, b4, b5⟩ := stands d hd'
  rw [hs] at b2
  cases b2
  obtain ⟨id, hl, hc⟩ := carrier s b3 12 b4
  refine ⟨fields', id, b1, hl, (b5 id hl).mp hc, ?_, fun _ => d, fun _ => hd', ?_⟩
  · refine (reports ds u u2 u3 u4 id hl).2 fun hcu => ?_
    have hlen := toss_length x (ds 0) d (hd 0) hd' sc fields
    rw [u2, hs] at hlen
    exact hsu (carries_both b3 u3 (Option.some.inj hlen).symm hc hcu)
  · exact (reports (fun _ => d) s hs b3 b4 id hl).1 hc

example : Scheme.sscc.Fillable ["3".toList, "0614141".toList, []] ∧
    Scheme.sscc.LeavesOpen ["3".toList, "0614141".toList, []] :=
  ⟨⟨Or.inr (by decide), by decide, Or.inl ⟨rfl, by decide⟩⟩, Or.inr ⟨rfl, by decide, by decide, by decide⟩⟩

/-- With the filter value left out, tags with filter value 7 are never reported. -/
theorem C104_never_seven (x : Binutil) (hx : x.Ok) (uri : Str) (sc : Scheme) (rest : List Str)
    (h : sc.Fillable ([] :: rest)) (ds : Nat → Toss) (hd : ∀ n, (ds n).Fair) (id : List Byte)
    (hl : id.length = 12) (h7 : field id 8 3 = 7) :
    (exactMatches (x.convert ds [(uri, [sc.patternText ([] :: rest)])])).matches id = some [] := by
  obtain ⟨fields', h1, h2⟩ := C104_selects x hx uri sc ([] :: rest) h ds hd
  rw [(h2 id hl).2]
  intro hh
  have key : ∀ fv', FilledIn (fun v => IsFilterValue v ∧ decVal v < 7) [] fv' → field id 8 3 = decVal fv' → False := by
    intro fv' hf he
    unfold FilledIn at hf
    rw [if_pos rfl] at hf
    omega
  match rest, fields', h1, hh with
  | [], [_], h1, hh => exact key _ h1 hh.2
  | [_], [_, _], h1, hh => exact key _ h1.1 hh.2.1
  | [_, _], [_, _, _], h1, hh => exact key _ h1.1 hh.2.1
  | [_, _, _], [_, _, _, _], h1, hh => exact key _ h1.1 hh.2.1

example : Scheme.sgtin.Fillable [[]] ∧ field [0x30#8, 0xF4#8, 0x25#8, 0x7B#8, 0xF4#8, 0#8, 0#8, 0#8, 0#8, 0#8, 0#8, 0#8] 8 3 = 7 :=
  ⟨Or.inl rfl, by decide +kernel⟩

/-- In the trees too an addition is not undone by the deletion of the same subscription, if it draws
    anew: the tag is still reported. -/
theorem C104_trees_keep : ∃ (sub add : Subs) (ds : Nat → Nat → Toss) (id : List Byte) (t : SNode),
    (∀ n m, (ds n m).Fair) ∧ id.length = 12 ∧
    (PNode.runDrawn boundedBinutil ds sub []).search id = some [] ∧
    (PNode.runDrawn boundedBinutil ds sub [.add add, .delete add]).search id = some ["http://b".toList] ∧
    SNode.runDrawn boundedBinutil ds sub [.add add, .delete add] = some t ∧
    (t.search id).map Prod.fst = some ["http://b".toList] := by
  have h : (SNode.runDrawn boundedBinutil (fun n _ => if n = 1 then zeroToss else oneToss)
      [("http://a".toList, ["urn:epc:pat:sgtin-96:2".toList])]
      [.add [("http://b".toList, ["urn:epc:pat:sgtin-96:".toList])],
       .delete [("http://b".toList, ["urn:epc:pat:sgtin-96:".toList])]]).bind
      (fun t => (t.search [0x30#8, 0x14#8, 0x25#8, 0x7B#8, 0xF4#8, 0#8, 0#8, 0#8, 0#8, 0#8, 0#8, 0#8]).map Prod.fst) =
      some ["http://b".toList] := by
    decide +kernel
  rw [Option.bind_eq_some_iff] at h
  obtain ⟨t, h1, h2⟩ := h
  refine ⟨[("http://a".toList, ["urn:epc:pat:sgtin-96:2".toList])], [("http://b".toList, ["urn:epc:pat:sgtin-96:".toList])],
    fun n _ => if n = 1 then zeroToss else oneToss,
    [0x30#8, 0x14#8, 0x25#8, 0x7B#8, 0xF4#8, 0#8, 0#8, 0#8, 0#8, 0#8, 0#8, 0#8], t, fun n _ => ?_, rfl,
    by decide +kernel, by decide +kernel, h1, h2⟩
  dsimp only
  split
  · exact zeroToss_fair
  · exact oneToss_fair

/-- In the code this fails: the engines built from one file need not agree. For the same subscriptions,
    each converted with draws of its own, the list reports a tag, the Patricia trie and the splay tree
    do not. -/
theorem C104_engines_differ : ∃ (sub : Subs) (ds es : Nat → Toss) (id : List Byte) (t : SNode),
    (∀ n, (ds n).Fair) ∧ (∀ n, (es n).Fair) ∧ id.length = 12 ∧
    (exactMatches (boundedBinutil.convert ds sub)).matches id = some ["http://b".toList, "http://a".toList] ∧
    (newPatriciaFrom (boundedBinutil.convert es sub)).search id = some [] ∧
    newSplayFrom (boundedBinutil.convert es sub) = some t ∧ (t.search id).map Prod.fst = some [] := by
  have h : (newSplayFrom (boundedBinutil.convert (fun _ => oneToss)
      [("http://a".toList, ["urn:epc:pat:sgtin-96:.0614141".toList]), ("http://b".toList, ["urn:epc:pat:sgtin-96:".toList])])).bind
      (fun t => (t.search [0x30#8, 0x14#8, 0x25#8, 0x7B#8, 0xF4#8, 0#8, 0#8, 0#8, 0#8, 0#8, 0#8, 0#8]).map Prod.fst) = some [] := by
    decide +kernel
  rw [Option.bind_eq_some_iff] at h
  obtain ⟨t, h1, h2⟩ := h
  exact ⟨[("http://a".toList, ["urn:epc:pat:sgtin-96:.0614141".toList]), ("http://b".toList, ["urn:epc:pat:sgtin-96:".toList])],
    fun _ => zeroToss, fun _ => oneToss, [0x30#8, 0x14#8, 0x25#8, 0x7B#8, 0xF4#8, 0#8, 0#8, 0#8, 0#8, 0#8, 0#8, 0#8], t,
    fun _ => zeroToss_fair, fun _ => oneToss_fair, rfl, by decide +kernel, by decide +kernel, h1, h2⟩

end Gosstrak
