import Verif.Spec.Evolve
import Mathlib.Analysis.SpecialFunctions.Trigonometric.Basic
/-!
# Specification: the gates of the circuit file format of the example

The gates as in the literature, as maps of states of qubits.
-/

namespace Verif

/-- The gates: Hadamard, square roots of X, Y and W = (X + Y)/√2, T, CZ, iSWAP, rotation of the phase, fSim. -/
inductive QGate
  | h (q : Int) | sqrtX (q : Int) | sqrtY (q : Int) | sqrtW (q : Int) | t (q : Int)
  | cz (q r : Int) | iswap (q r : Int) | rz (θ : ℝ) (q : Int) | fsim (θ φ : ℝ) (q r : Int)

namespace QGate

/-- The qubits on which a gate acts. -/
def qubits : QGate → List Int
  | h q | sqrtX q | sqrtY q | sqrtW q | t q | rz _ q => [q]
  | cz q r | iswap q r | fsim _ _ q r => [q, r]

/-- The Pauli matrix X. -/
def pauliX (a b : Nat) : ℂ := if a = b then 0 else 1

/-- The Pauli matrix Y. -/
noncomputable def pauliY (a b : Nat) : ℂ := if a = b then 0 else if a = 0 then -Complex.I else Complex.I

/-- The matrix (X + Y)/√2. -/
noncomputable def pauliW (a b : Nat) : ℂ := (pauliX a b + pauliY a b) / Real.sqrt 2

/-- The rotation `exp (-i π P / 4) = (1 - i P)/√2`, a square root of `P` up to a phase if `P` squares to one. -/
noncomputable def quarter (P : Nat → Nat → ℂ) (a b : Nat) : ℂ := ((if a = b then 1 else 0) - Complex.I * P a b) / Real.sqrt 2

/-- The matrix entries of a gate: row index (output values) before column index (input values). -/
noncomputable def entry : QGate → List Nat → ℂ
  | h _, [a, b] => (-1) ^ (a * b) / Real.sqrt 2
  | sqrtX _, [a, b] => quarter pauliX a b
  | sqrtY _, [a, b] => quarter pauliY a b
  | sqrtW _, [a, b] => quarter pauliW a b
  | t _, [a, b] => if a = b then Complex.exp (Complex.I * (Real.pi / 4) * a) else 0
  | rz θ _, [a, b] => if a = b then Complex.exp (Complex.I * θ * a) else 0
  | cz _ _, [a, b, c, d] => if a = c ∧ b = d then (-1) ^ (a * b) else 0
  | iswap _ _, [a, b, c, d] => if a = d ∧ b = c then (if a = b then 1 else Complex.I) else 0
  | fsim θ φ _ _, [a, b, c, d] =>
    if a + b ≠ c + d then 0 else if a = b then Complex.exp (-(Complex.I * φ) * (a * b : ℕ))
    else if a = c then Complex.cos θ else -(Complex.I * Complex.sin θ)
  | _, _ => 0

/-- A gate as a map of states. -/
noncomputable def act (g : QGate) : Act ℂ := ⟨g.entry, g.qubits, g.qubits⟩

end QGate

end Verif
