import Verif.Spec.Subs

/-!
Tags that are shorter than some filters.
-/
namespace Gosstrak

/-- The tag ends inside the filter: the filter begins with all bits of the tag and goes on. A tag of
    no bits at all ends inside every filter, even the empty one. -/
def TagEndsInside (id : List Byte) (k : Str) : Prop :=
  bitsOf id <+: k ∧ (bitsOf id ≠ k ∨ id = [])

instance (id : List Byte) (k : Str) : Decidable (TagEndsInside id k) := by
  unfold TagEndsInside; infer_instance

/-- The tag ends inside one of the filters. -/
def TagTooShort (bsub : FlatSubs) (id : List Byte) : Prop :=
  ∃ k u, (k, u) ∈ bsub ∧ TagEndsInside id k

/-- There are filters that begin with all bits of the tag and go on, and all filters that begin with
    the tag's bits go on with the same bit. -/
def TagEndsOnBranch (bsub : FlatSubs) (id : List Byte) : Prop :=
  ∃ c, (∃ k u, (k, u) ∈ bsub ∧ bitsOf id ++ [c] <+: k) ∧
    ∀ k u, (k, u) ∈ bsub → bitsOf id <+: k → bitsOf id ++ [c] <+: k

end Gosstrak
