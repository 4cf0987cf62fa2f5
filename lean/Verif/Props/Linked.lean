import Verif.Proofs.Linked
import Verif.Props.Subs

/-! # C14, C15: nesting of subscriptions -/
namespace Gosstrak

/-- C14: `linkSubset` on a flat map terminates without a nil dereference and keeps exactly the same
    (full filter string, URI) pairs; every offset is the number of bits of the enclosing filters. -/
theorem C14_keeps_everything (b : FlatSubs) (hm : IsMap b) :
    ∃ b', linkSubset b = some b' ∧ (∀ q u, Full b' q u ↔ (q, u) ∈ b) ∧ Offsets 0 b' := by
  obtain ⟨b', h1, -, h3, h4⟩ := linkSubset_spec b hm
  exact ⟨b', h1, h3, h4⟩

/-- C15: after `linkSubset` no filter at any level is a prefix of another one at the same level. -/
theorem C15_prefix_free (b : FlatSubs) (hm : IsMap b) :
    ∃ b', linkSubset b = some b' ∧ Linked b' := by
  obtain ⟨b', h1, h2, -⟩ := linkSubset_spec b hm
  exact ⟨b', h1, h2⟩

-- test: three levels, and an unrelated filter
private def toyFlat : FlatSubs :=
  [("0011".toList, "c".toList), ("1".toList, "d".toList), ("00".toList, "b".toList),
   ("0010".toList, "e".toList), ("0".toList, "a".toList)]
example : linkSubset toyFlat = some
    [("1".toList, .mk 0 "d".toList []),
     ("0".toList, .mk 0 "a".toList [("0".toList, .mk 1 "b".toList
        [("10".toList, .mk 2 "e".toList []), ("11".toList, .mk 2 "c".toList [])])])] := by
  rfl
example : IsMap toyFlat := by decide +kernel

end Gosstrak
