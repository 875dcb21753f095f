import Mathlib.Algebra.BigOperators.Group.Finset.Basic
/-!
# Specification: sums over all indices of a tensor
-/

namespace Verif

/-- The sum of `f` over all index lists of a tensor of the given shape. -/
def sumIdx {M : Type} [AddCommMonoid M] : List Nat → (List Nat → M) → M
  | [], f => f []
  | d :: ds, f => ∑ x ∈ Finset.range d, sumIdx ds fun idx => f (x :: idx)

end Verif
