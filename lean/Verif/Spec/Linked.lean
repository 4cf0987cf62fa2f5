import Verif.Model.Linked
import Verif.Spec.Subs

/-! Specification vocabulary for nested subscriptions. -/
namespace Gosstrak

/-- somewhere in `b`, possibly nested, there is a filter whose full string (with the strings of the
    enclosing filters) is `q`, and its URI is `u` -/
inductive Full : BSub → Str → Str → Prop
  | here {b k o u s} : (k, PSub.mk o u s) ∈ b → Full b k u
  | under {b k o u s q v} : (k, PSub.mk o u s) ∈ b → Full s q v → Full b (k ++ q) v

/-- at every level the keys are distinct, no key is a prefix of another one, and nested keys are
    not empty -/
inductive Linked : BSub → Prop
  | mk {b} : IsMap b →
      (∀ k p k' p', (k, p) ∈ b → (k', p') ∈ b → k <+: k' → k = k') →
      (∀ k o u s, (k, PSub.mk o u s) ∈ b → ∀ k' p, (k', p) ∈ s → k' ≠ []) →
      (∀ k o u s, (k, PSub.mk o u s) ∈ b → Linked s) → Linked b

/-- every offset is the number of bits covered by the enclosing filters -/
inductive Offsets : Nat → BSub → Prop
  | mk {n b} : (∀ k o u s, (k, PSub.mk o u s) ∈ b → o = n) →
      (∀ k o u s, (k, PSub.mk o u s) ∈ b → Offsets (n + k.length) s) → Offsets n b

end Gosstrak
