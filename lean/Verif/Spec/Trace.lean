import Verif.Spec.Measure
import Verif.Spec.Index
import Verif.Spec.Operation
/-!
# Specification: operations on density matrices that keep the trace
-/

namespace Verif

variable {R : Type} [CommSemiring R]

/-- An operation with `i` inputs and `o` outputs, given by its entries (outputs, inputs, outputs of the bra, inputs of the
bra), keeps the trace. -/
def KeepsTrace (T : List Nat → R) (o i : Nat) : Prop := ∀ x x', Bits x i → Bits x' i →
  sumIdx (List.replicate o 2) (fun w => T (w ++ x ++ w ++ x')) = if x = x' then 1 else 0

variable [StarRing R]

/-- A matrix with orthonormal columns. -/
def Isometric (U : List Nat → R) (o i : Nat) : Prop := ∀ x x', Bits x i → Bits x' i →
  sumIdx (List.replicate o 2) (fun w => U (w ++ x) * star (U (w ++ x'))) = if x = x' then 1 else 0

/-- Kraus operators with `Σ K† K = 1`. -/
def Complete (Ks : List (List Nat → R)) (o i : Nat) : Prop := ∀ x x', Bits x i → Bits x' i →
  (Ks.map fun K => sumIdx (List.replicate o 2) (fun w => K (w ++ x) * star (K (w ++ x')))).sum = if x = x' then 1 else 0

end Verif
