import Verif.Spec.Evolve
import Verif.Spec.Adjoint
import Verif.Spec.Total
import Verif.Model.Operation
/-!
# Specification: the matrices of operations

Of the model only the data types are used.  The entry of an operation at `x ++ y` is the amplitude of the values `x` of
its output qubits for the values `y` of its input qubits, the qubits being taken in order.
-/

namespace Verif

/-- The places of a shape that satisfy a condition. -/
def places (P : List Letter → Prop) [DecidablePred P] (s : List (List Letter)) : List Nat :=
  (List.range s.length).filter fun k => decide (P (s[k]?.getD []))

/-- The last end on the wire is an output. -/
def IsOut (w : List Letter) : Prop := (w.flatMap Letter.ports).getLast? = some .out

/-- The first end on the wire is an input. -/
def IsIn (w : List Letter) : Prop := (w.flatMap Letter.ports).head? = some .inp

instance : DecidablePred IsOut := fun w => inferInstanceAs (Decidable ((w.flatMap Letter.ports).getLast? = some .out))
instance : DecidablePred IsIn := fun w => inferInstanceAs (Decidable ((w.flatMap Letter.ports).head? = some .inp))

/-- The outputs of an operation. -/
def outPlaces (s : List (List Letter)) : List Nat := places IsOut s

/-- The inputs of an operation. -/
def inPlaces (s : List (List Letter)) : List Nat := places IsIn s

/-- The controlling qubits of an operation. -/
def ctrlPlaces (s : List (List Letter)) : List Nat := places (fun w => w = [.c]) s

/-- A list of basis values. -/
def Bits (idx : List Nat) (n : Nat) : Prop := idx.length = n ∧ ∀ b ∈ idx, b < 2

/-- The assignment of the values `x` to the keys `ks`. -/
def readAt {K : Type} [DecidableEq K] (ks : List K) (x : List Nat) : K → Nat := fun k => x[ks.idxOf k]?.getD 0

variable {R : Type} [CommSemiring R]

/-- The block diagonal matrix with the blocks `T (controls ++ other outputs ++ other inputs)`. -/
def blockMat (T : List Nat → R) (s : List (List Letter)) (idx : List Nat) : R :=
  let u := readAt (outPlaces s) idx
  let v := readAt (inPlaces s) (idx.drop (outPlaces s).length)
  if ∀ k ∈ ctrlPlaces s, u k = v k then
    T ((ctrlPlaces s).map u ++ ((outPlaces s).filter (· ∉ ctrlPlaces s)).map u ++
      ((inPlaces s).filter (· ∉ ctrlPlaces s)).map v)
  else 0

/-- The operations of a circuit in the order of time. -/
def timeSorted {α : Type} (c : Circ α) : Circ α := c.insertionSort fun p p' => p.2.time ≤ p'.2.time

/-- The qubits of a circuit, in order. -/
def qubitsOf {α : Type} (c : Circ α) : List Int := ((c.flatMap fun p => p.2.qubits).dedup).insertionSort (· ≤ ·)

/-- The output qubits of a circuit. -/
def circOuts {α : Type} (sh : Circ.ShapeFn α) (c : Circ α) : List Int :=
  (qubitsOf c).filter fun q => (wireWord sh q (timeSorted c)).getLast? = some .out

/-- The input qubits of a circuit. -/
def circIns {α : Type} (sh : Circ.ShapeFn α) (c : Circ α) : List Int :=
  (qubitsOf c).filter fun q => (wireWord sh q (timeSorted c)).head? = some .inp

/-- The matrix of a circuit: its operations applied to basis states in the order of time. -/
def circMat {α : Type} (sh : Circ.ShapeFn α) (ten : α → List Nat → R) (c : Circ α) (idx : List Nat) : R :=
  evolve ((timeSorted c).map fun p => actOf sh ten p.2)
    (basisState (circIns sh c) (readAt (circIns sh c) (idx.drop (circOuts sh c).length))) (readAt (circOuts sh c) idx)

/-- The controlled version of the matrix `A` with `m` outputs and `m` inputs: `A` on the block where the control has
the value `b`, the identity on the other one. -/
def controlMat (A : List Nat → R) (m b : Nat) (idx : List Nat) : R :=
  let x := (idx.take (m + 1)).tail
  let y := (idx.drop (m + 1)).tail
  if idx.head? = (idx.drop (m + 1)).head? then
    if idx.head? = some b then A (x ++ y) else if x = y then 1 else 0
  else 0

namespace Oper

variable [Star R]

/-- The matrix of an operation, given the shapes of the operations at every nesting depth. -/
def mat (sh : Nat → Circ.ShapeFn (Oper R)) : Nat → Oper R → List Nat → R
  | 0, _ => fun _ => 0
  | _ + 1, .imm _ _ => fun _ => 0
  | _ + 1, .pure p _ => p.data.tot
  | _ + 1, .ctrl data s _ _ => blockMat data.tot s
  | n + 1, .circ c => circMat (sh n) (mat sh n) c
  | n + 1, .cctrl c _ cond => controlMat (circMat (sh n) (mat sh n) c) (circOuts (sh n) c).length (if cond then 1 else 0)
  | n + 1, .sup terms _ => fun idx => (terms.map fun p => p.1 * mat sh n p.2 idx).sum

end Oper

end Verif
