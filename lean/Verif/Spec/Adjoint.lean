import Verif.Model.Circuit
import Mathlib.Algebra.Star.Basic
/-!
# Specification: the adjoint of an operation
-/

namespace Verif

/-- Inputs and outputs exchanged. -/
def Letter.flip : Letter → Letter
  | .i => .o
  | .o => .i
  | .c => .c
  | .b => .d
  | .d => .b

/-- The shape read backwards. -/
def flipShape (s : List (List Letter)) : List (List Letter) := s.map fun w => w.reverse.map Letter.flip

/-- The matrix `A'`, with `n` rows and `m` columns as numbers of qubits, is the conjugate transpose of `A`. -/
def ConjTransposed {R : Type} [Star R] (A' A : List Nat → R) (n m : Nat) : Prop :=
  ∀ x y : List Nat, x.length = n → y.length = m → (∀ b ∈ x, b < 2) → (∀ b ∈ y, b < 2) → A' (x ++ y) = star (A (y ++ x))

end Verif
