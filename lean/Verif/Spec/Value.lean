import Verif.Model.Value
import Verif.Spec.Network
import Mathlib.Algebra.Star.Basic
/-!
# Specification: the tensor a tensor-valued object stands for

Arrays stand for themselves, a network for its Einstein sum, a sum for the entrywise sum of its terms and a
view for the entrywise conjugate.  Only the data type is used, none of the operations.
-/

namespace Verif

namespace TVal

variable {R : Type} [CommSemiring R] [Star R]

mutual
/-- The entries of the tensor. -/
def val : TVal R → List Nat → R
  | .ten none => fun _ => 0
  | .ten (some a) => a.get
  | .net ns es adj op c => fun idx => einsum (TN.dom ⟨ns, es, adj, op, c⟩) (valFactors ns) op idx
  | .sum ts => fun idx => valSum ts idx
  | .view t => fun idx => star (t.val idx)

/-- The factors of a network. -/
def valFactors : List (Nm × NodeRec (TVal R)) → List (Factor Nm R)
  | [] => []
  | (_, ⟨legs, t, _⟩) :: ns => ⟨legs, valOpt t⟩ :: valFactors ns

/-- The entries of the tensor at a node. -/
def valOpt : Option (TVal R) → List Nat → R
  | none => fun _ => 0
  | some t => t.val

/-- Entrywise sum. -/
def valSum : List (Nm × TVal R) → List Nat → R
  | [], _ => 0
  | (_, t) :: ts, idx => t.val idx + valSum ts idx
end

theorem valFactors_eq (ns : List (Nm × NodeRec (TVal R))) : valFactors ns = ns.map fun p => p.2.factor val := by
  induction ns with
  | nil => rw [valFactors]; rfl
  | cons p ns ih =>
    obtain ⟨n, ⟨legs, t, f⟩⟩ := p
    rw [valFactors, ih]
    cases t <;> simp [NodeRec.factor, valOpt]

theorem val_ofTN (tn : TN (TVal R)) : (ofTN tn).val = tn.value val := by
  funext idx
  unfold ofTN
  rw [val, valFactors_eq]; rfl

theorem valSum_eq (ts : List (Nm × TVal R)) (idx : List Nat) :
    valSum ts idx = (ts.map fun p => p.2.val idx).sum := by
  induction ts with
  | nil => rw [valSum]; rfl
  | cons p ts ih => obtain ⟨n, t⟩ := p; rw [valSum, ih]; rfl

end TVal

end Verif
