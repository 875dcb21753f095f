import Verif.Spec.Evolve
/-!
# Specification: measuring a qubit of a density matrix

A density matrix on the qubits `Q` is a function of two assignments of values to qubits; only the values at `Q` matter.
-/

namespace Verif

variable {R : Type} [CommSemiring R]

/-- The trace. -/
def traceOf (Q : List Int) (ρ : (Int → Nat) → (Int → Nat) → R) : R := sumOver bits Q (fun x => ρ x x) fun _ => 0

/-- The probability of the value `b` of the qubit `q`: the sum of the diagonal entries that have it. -/
def probOf (Q : List Int) (ρ : (Int → Nat) → (Int → Nat) → R) (q : Int) (b : Nat) : R :=
  sumOver bits Q (fun x => if x q = b then ρ x x else 0) fun _ => 0

/-- The density matrix after the outcome `b`, not normalised: the entries at other values of `q` are gone. -/
def project (q : Int) (b : Nat) (ρ : (Int → Nat) → (Int → Nat) → R) : (Int → Nat) → (Int → Nat) → R := fun w w' =>
  if w q = b ∧ w' q = b then ρ w w' else 0

/-- The density matrix of the other qubits after the outcome `b`, not normalised. -/
def condition (q : Int) (b : Nat) (ρ : (Int → Nat) → (Int → Nat) → R) : (Int → Nat) → (Int → Nat) → R := fun w w' =>
  ρ (Function.update w q b) (Function.update w' q b)

end Verif
