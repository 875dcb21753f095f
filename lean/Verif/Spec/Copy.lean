import Verif.Spec.Einsum
/-!
# Specification: the copy tensor

One if all indices are equal, zero otherwise.  Attached to a list of edges it forces them to take the same value.
-/

namespace Verif

/-- The copy tensor of any rank. -/
def copyTen (R : Type) [Zero R] [One R] (idx : List Nat) : R := if ∀ x ∈ idx, ∀ y ∈ idx, x = y then 1 else 0

end Verif
