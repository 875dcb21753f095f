import Mathlib.LinearAlgebra.Matrix.Trace
import Mathlib.LinearAlgebra.Matrix.Notation
import Mathlib.Analysis.Complex.Basic
/-!
# Specification: channels of one qubit in the basis of Pauli matrices
-/

namespace Verif

namespace Ptm

open Complex Matrix

/-- The Pauli matrices I, X, Y, Z. -/
noncomputable def pauli : Fin 4 → Matrix (Fin 2) (Fin 2) ℂ := ![1, !![0, 1; 1, 0], !![0, -I; I, 0], !![1, 0; 0, -1]]

/-- 1 if the Pauli matrices commute, -1 otherwise: they commute if one of them is the identity or if they are equal. -/
def sign (i j : Fin 4) : ℝ := if i = 0 ∨ j = 0 ∨ i = j then 1 else -1

/-- The linear map of matrices with the given coefficients: output row, input row, output column, input column are the
second, first, fourth and third argument. -/
noncomputable def channel (res : Fin 2 → Fin 2 → Fin 2 → Fin 2 → ℂ) (ρ : Matrix (Fin 2) (Fin 2) ℂ) : Matrix (Fin 2) (Fin 2) ℂ :=
  Matrix.of fun b B => ∑ a, ∑ A, res a b A B * ρ a A

/-- The entry of the Pauli transfer matrix (not divided by 2) of a map of matrices. -/
noncomputable def entry (E : Matrix (Fin 2) (Fin 2) ℂ → Matrix (Fin 2) (Fin 2) ℂ) (i j : Fin 4) : ℂ := trace (pauli i * E (pauli j))

end Ptm

end Verif
