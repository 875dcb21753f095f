import Verif.Spec.Density
/-!
# Specification: an operation as the sequence of the gates it is made of

A circuit used as an operation on the qubits `qs` stands for its operations, in the order of time, on the qubits to
which its own qubits, in increasing order, are attached.
-/

namespace Verif

variable {R : Type} [CommSemiring R]

/-- The qubit standing in `bs` at the place where `q` stands in `as`. -/
def attach (as bs : List Int) (q : Int) : Int := (bs[as.idxOf q]?).getD q

namespace Oper

/-- The operations of which `op`, acting on the qubits `qs`, is made: circuits are taken apart, to every depth.  `ent` are
the entries of what is no circuit (`Oper.mat` for states, `Oper.densMat` for density matrices). -/
def leaves (sh : Nat → Circ.ShapeFn (Oper R)) (ent : Nat → Oper R → List Nat → R) : Nat → Oper R → List Int → List (Act R)
  | n + 1, .circ c, qs => (timeSorted c).flatMap fun p => leaves sh ent n p.2.op (p.2.qubits.map (attach (qubitsOf c) qs))
  | n, op, qs => [⟨ent n op, inQubits (shapeD (sh n) op) qs, outQubits (shapeD (sh n) op) qs⟩]

end Oper

end Verif
