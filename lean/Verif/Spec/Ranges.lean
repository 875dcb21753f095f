import Mathlib.Data.Finset.Basic
/-! # Specification: ranges of a subscript along a sequence of sets -/

namespace Verif

/-- `a` is in the sets `d, ..., i - 1`, not in set `i`, and not in the set before `d`. -/
def Range (O : Nat → Finset Nat) (a d i : Nat) : Prop :=
  d < i ∧ (∀ k, d ≤ k → k < i → a ∈ O k) ∧ a ∉ O i ∧ (d = 0 ∨ a ∉ O (d - 1))

end Verif
