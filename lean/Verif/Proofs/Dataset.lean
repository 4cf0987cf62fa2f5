import Verif.Spec.Dataset
import Verif.Props.Generate

/-! Facts about the lines of the data sets. -/
namespace Gosstrak

theorem named_typeName (sc : Scheme) : sc.Named sc.typeName := rfl

theorem has_shorter (sc : Scheme) (id : List Byte) (fv cp ref ser : Str)
    (h : sc.Has id (sc.allFields fv cp ref ser)) : sc.Has id [fv, cp] ∧ sc.Has id [fv, cp, ref] := by
  unfold Scheme.allFields at h
  split at h
  · obtain ⟨h1, h2, h3, h4, h5, _⟩ := h
    exact ⟨⟨h1, h2, h3, h4⟩, ⟨h1, h2, h3, h4, h5⟩⟩
  · obtain ⟨h1, h2, h3, h4, h5⟩ := h
    exact ⟨⟨h1, h2, h3, h4⟩, ⟨h1, h2, h3, h4, h5⟩⟩

theorem tag_line (x : Binutil) (hx : x.Ok) (t : BinText) (ht : t.Ok) (sc : Scheme)
    (cp ir ext ser iar at' : Str)
    (h : sc.WellFormed (sc.allFields "3".toList cp (sc.second ir ext iar at') ser)) :
    ∃ id, TagLine (x.epcLine t false sc.typeName cp ir ext ser iar at') id
        (sc.urn (sc.allFields "3".toList cp (sc.second ir ext iar at') ser).tail) ∧ id.length = 12 ∧
      sc.Has id ["3".toList, cp] ∧ sc.Has id ["3".toList, cp, sc.second ir ext iar at'] := by
  obtain ⟨bs, id, h1, h2, h3, h4, h5, h6⟩ :=
    C80_epc_tag x hx t ht sc sc.typeName (named_typeName sc) "3".toList cp ir ext ser iar at' h
  obtain ⟨id', m1, m2, m3⟩ := make_has x hx sc _ _ _ _ (wellFormed_encodable sc _ h)
  have hid : id = id' := by
    have e : (x.makeEPC t false sc.typeName "3".toList cp ir ext ser iar at').1 = bitsOf id' := by
      unfold Binutil.makeEPC
      rw [makeAny_tag x sc _ (named_typeName sc), m1]
      exact ht.hexToBin id'
    rw [h1] at e
    have := makeByteID_bitsOf id'
    rw [← e] at this
    have h7 := h5.1
    dsimp only at this
    rw [h7] at this
    exact (Prod.mk.inj this).1
  subst hid
  refine ⟨id, ⟨"3000".toList, bs, 48#8, 0#8, ?_, h5, h6⟩, m2, has_shorter sc id _ _ _ _ m3⟩
  unfold Binutil.epcLine
  rw [h1]
  exact h2

theorem filter_line (x : Binutil) (hx : x.Ok) (t : BinText) (sc : Scheme)
    (cp ir ext iar at' : Str) (fields rest : List Str) (hf : fields ≠ [] ∧ ∀ f ∈ fields, f ≠ [])
    (hr : ∀ f ∈ rest, f = []) (h : ["3".toList, cp, sc.second ir ext iar at', []] = fields ++ rest)
    (he : sc.Encodable fields) :
    ∃ s, FilterLine x sc.typeName fields (x.epcLine t true sc.typeName cp ir ext [] iar at') s ∧
      ∀ id : List Byte, id.length = 12 → sc.Has id fields → Matched s id := by
  obtain ⟨s, h1, h2⟩ := C80_epc_filter x t sc sc.typeName (named_typeName sc) "3".toList cp ir ext [] iar at'
    fields rest hf hr (by rw [ite_self]; exact h)
  obtain ⟨s', e1, e2⟩ := C40_selects x hx sc fields he
  obtain ⟨s'', f1, f2, f3, _⟩ := encoder_carries x hx sc fields he
  rw [h1] at e1 f1
  cases e1
  cases f1
  refine ⟨s, ⟨h1, ?_⟩, fun id hl hh => ((e2 id hl).1).mpr hh⟩
  unfold Binutil.epcLine
  rw [h2]
  dsimp only
  unfold printID
  rw [if_neg (by omega)]
  rfl

theorem allOf_map {f : Nat → Option Str} {g : Nat → Str} (n : Nat) (h : ∀ k < n, f k = some (g k)) :
    allOf ((List.range n).map f) = some ((List.range n).map g) := by
  have key : ∀ l : List Nat, (∀ k ∈ l, f k = some (g k)) → allOf (l.map f) = some (l.map g) := by
    intro l
    induction l with
    | nil => intro _; rfl
    | cons k l ih =>
      intro h
      rw [List.map_cons, h k List.mem_cons_self, allOf, ih fun j hj => h j (List.mem_cons_of_mem _ hj)]
      rfl
  exact key _ fun k hk => h k (List.mem_range.mp hk)

theorem range_get (n k : Nat) (h : k < n) {α : Type} (g : Nat → α) : ((List.range n).map g)[k]? = some (g k) := by
  rw [List.getElem?_map, List.getElem?_range h]
  rfl

theorem dec_fits (k : Nat) : IsDigits (decStr k) ∧ decStr k ≠ [] ∧ decVal (decStr k) = k :=
  let h := decStr_numeral k
  ⟨h.1, h.2.1, h.2.2.1⟩

theorem filter3 : IsFilterValue "3".toList := by decide

/-- an ISO tag carries the six-bit text from the start -/
theorem iso_matched (x : Binutil) (hx : x.Ok) (a b : Str) (h : IsSixBit (a ++ b)) (ha : a ≠ [])
    (id : List Byte) (k : Nat)
    (hl : 8 * id.length = 6 * (a ++ b).length + k) (hc : Carries (x.sixBits (a ++ b) ++ padBits k) 0 id) :
    Matched (x.sixBits a) id := by
  have hsix : IsSixBit a := fun c hc => h c (List.mem_append.mpr (Or.inl hc))
  obtain ⟨f1, f2⟩ := sixBits_bits x hx a hsix.orSpace
  have hpos : 0 < a.length := List.length_pos_iff.mpr ha
  rw [List.length_append] at hl
  unfold Matched
  rw [(C01_match_iff_carries _ f1.filterStr 0 id ⟨by rw [f2]; omega, by omega⟩).1]
  rw [carries_append, sixBits_append, carries_append] at hc
  exact hc.1.1

/-- the bits returned for a tag are those of the ID made -/
theorem isoTexts_id (t : BinText) (ht : t.Ok) (made : Option (Made × Nat)) (afi bs pc : Str)
    (h : isoTexts t false made afi = some (bs, pc)) (id' : List Byte) (f q : Str) (m : Nat)
    (hm : made = some (⟨id', f, q⟩, m)) (p0 p1 : Byte) (id : List Byte) (hr : ReadsAs bs pc p0 p1 id) :
    id = id' := by
  subst hm
  unfold isoTexts at h
  dsimp only [Option.getD_some] at h
  split at h
  · cases h
  · have hb := (Prod.mk.inj (Option.some.inj h)).1
    rw [← show t.hexToBin (hexEncode id') = bs from hb, ht.hexToBin] at hr
    have h7 := hr.1
    rw [makeByteID_bitsOf] at h7
    exact (Prod.mk.inj h7).1.symm

end Gosstrak
