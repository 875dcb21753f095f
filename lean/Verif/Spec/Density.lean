import Verif.Spec.Operation
/-!
# Specification: operations acting on density matrices

A density matrix is a function of two assignments of basis values to the qubits.  An operation on density matrices has
entries `D (out ++ in ++ out' ++ in')`: it maps the matrix unit `|in⟩⟨in'|` to the sum of
`D (out ++ in ++ out' ++ in') |out⟩⟨out'|`.
-/

namespace Verif

variable {R : Type} [CommSemiring R]

/-- The density matrix after an operation with the entries `p.ten`. -/
def Act.applyDens (p : Act R) (ρ : (Int → Nat) → (Int → Nat) → R) : (Int → Nat) → (Int → Nat) → R := fun w w' =>
  sumOver bits p.ins (fun x => sumOver bits p.ins (fun x' =>
    p.ten (p.outs.map w ++ p.ins.map x ++ p.outs.map w' ++ p.ins.map x') * ρ x x') w') w

/-- The density matrix after a sequence of operations. -/
def evolveDens : List (Act R) → ((Int → Nat) → (Int → Nat) → R) → (Int → Nat) → (Int → Nat) → R
  | [], ρ => ρ
  | p :: ps, ρ => evolveDens ps (p.applyDens ρ)

/-- The matrix unit `|v⟩⟨v'|` of the qubits `qs`. -/
def basisDens (qs : List Int) (v v' : Int → Nat) : (Int → Nat) → (Int → Nat) → R := fun w w' =>
  if (∀ q ∈ qs, w q = v q) ∧ ∀ q ∈ qs, w' q = v' q then 1 else 0

/-- The entries of the operation on density matrices given by one matrix: `T ⊗ star T`. -/
def pairMat [Star R] (T : List Nat → R) (n : Nat) (idx : List Nat) : R := T (idx.take n) * star (T (idx.drop n))

/-- The entries of a circuit as an operation on density matrices: its operations applied to matrix units in the order
of time. -/
def circDens {α : Type} (sh : Circ.ShapeFn α) (dens : α → List Nat → R) (c : Circ α) (idx : List Nat) : R :=
  let o := (circOuts sh c).length
  let i := (circIns sh c).length
  evolveDens ((timeSorted c).map fun p => actOf sh dens p.2)
    (basisDens (circIns sh c) (readAt (circIns sh c) (idx.drop o)) (readAt (circIns sh c) (idx.drop (o + i + o))))
    (readAt (circOuts sh c) idx) (readAt (circOuts sh c) (idx.drop (o + i)))

namespace Oper

variable [Star R]

/-- The entries of an operation on density matrices, given the shapes of the operations at every nesting depth. -/
def densMat (sh : Nat → Circ.ShapeFn (Oper R)) : Nat → Oper R → List Nat → R
  | 0, _ => fun _ => 0
  | _ + 1, .imm data _ => data.tot
  | n + 1, .circ c => circDens (sh n) (densMat sh n) c
  | n + 1, op => fun idx => pairMat (mat sh (n + 1) op) (idx.length / 2) idx

end Oper

end Verif
