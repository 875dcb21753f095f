import Verif.Base.Sum
import Verif.Base.Name
/-!
# Specification: the mean of an observable in a QAOA state

The state is built layer by layer from the uniform superposition (left without its factor `2^(-n/2)`): first the phases of all
clauses, then a rotation of every qubit.  Layers are numbered from the last one (1) to the first.
Nothing here comes from the light cone or from tensor networks.
-/

namespace Verif

variable {R : Type} [CommSemiring R]

/-- The two values of a bit. -/
abbrev bitDom {E : Type} : E → Finset Nat := fun _ => Finset.range 2

/-- The amplitude at `x` after `k` layers, the last of which has number `i`: rotations `X`, phases `P`. -/
def qaoaAmp (V : List Nm) (csp : List (List Nm)) (X : Nat → Nat → Nat → R) (P : Nat → List Nm → List Nat → R) : Nat → Nat → (Nm → Nat) → R
  | 0, _, _ => 1
  | k + 1, i, x =>
    sumOver bitDom V (fun y => (V.map fun q => X i (x q) (y q)).prod * (csp.map fun c => P i c (c.map y)).prod * qaoaAmp V csp X P k (i + 1) y) fun _ => 0

/-- The mean of the diagonal observable `C` in the state of `L` layers (times `2^n`); `Xc` and `Pc` are the conjugates. -/
def qaoaMean (V : List Nm) (csp : List (List Nm)) (X Xc : Nat → Nat → Nat → R) (P Pc : Nat → List Nm → List Nat → R) (L : Nat) (C : (Nm → Nat) → R) : R :=
  sumOver bitDom V (fun x => C x * (qaoaAmp V csp X P L 1 x * qaoaAmp V csp Xc Pc L 1 x)) fun _ => 0

end Verif
