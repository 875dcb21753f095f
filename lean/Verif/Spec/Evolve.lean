import Verif.Base.Sum
import Verif.Spec.Wires
/-!
# Specification: operations acting on the state of the qubits

A state is a function of the basis values of the qubits.  Values at qubits that hold nothing are irrelevant.
-/

namespace Verif

variable {R : Type} [CommSemiring R]

/-- An operation on the state of the qubits: its matrix entries `T (out ++ in)`, input and output qubits. -/
structure Act (R : Type) where
  ten : List Nat → R
  ins : List Int
  outs : List Int

/-- The values of a qubit. -/
def bits : Int → Finset Nat := fun _ => Finset.range 2

/-- The state after the operation: `Ψ'(w) = Σ_x T(w at the outputs, x at the inputs) Ψ(w with x at the inputs)`. -/
def Act.apply (p : Act R) (Ψ : (Int → Nat) → R) : (Int → Nat) → R := fun w =>
  sumOver bits p.ins (fun x => p.ten (p.outs.map w ++ p.ins.map x) * Ψ x) w

/-- The state after a sequence of operations. -/
def evolve : List (Act R) → ((Int → Nat) → R) → (Int → Nat) → R
  | [], Ψ => Ψ
  | p :: ps, Ψ => evolve ps (p.apply Ψ)

/-- The basis state with value `v q` at the qubits `qs`. -/
def basisState (qs : List Int) (v : Int → Nat) : (Int → Nat) → R := fun w => if ∀ q ∈ qs, w q = v q then 1 else 0

/-- The qubits an operation takes in: its first end on the wire is an input. -/
def inQubits (s : List (List Letter)) (qs : List Int) : List Int := qs.filter fun q => (portsAt s qs q).head? = some .inp

/-- The qubits an operation hands on: its last end on the wire is an output. -/
def outQubits (s : List (List Letter)) (qs : List Int) : List Int :=
  qs.filter fun q => (portsAt s qs q).getLast? = some .out

/-- The action of an operation of a circuit, given the matrix entries of the operations. -/
def actOf {α : Type} (sh : Circ.ShapeFn α) (ten : α → List Nat → R) (r : OpRec α) : Act R :=
  ⟨ten r.op, inQubits (shapeD sh r.op) r.qubits, outQubits (shapeD sh r.op) r.qubits⟩

end Verif
