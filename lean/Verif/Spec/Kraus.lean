import Verif.Spec.Density
/-!
# Specification: matrices with rows and columns numbered in binary, Kraus operators
-/

namespace Verif

/-- The number with the given binary digits, the most significant one first. -/
def binary (bs : List Nat) : Nat := bs.foldl (fun n b => 2 * n + b) 0

variable {R : Type} [CommSemiring R] [StarRing R]

/-- The entry of a Kraus operator with `lout` outputs at the basis values `idx` of the outputs and inputs: the operator is
an array with one axis per qubit or a matrix. -/
def krausEntry (lout : Nat) (a : Arr R) (idx : List Nat) : R :=
  if a.shape = List.replicate idx.length 2 then a.get idx else a.get [binary (idx.take lout), binary (idx.drop lout)]

/-- The sum of `K ρ K†` over the Kraus operators `K`, acting on the qubits `ins`. -/
def krausMap (Ks : List (List Nat → R)) (ins outs : List Int) (ρ : (Int → Nat) → (Int → Nat) → R) : (Int → Nat) → (Int → Nat) → R := fun w w' =>
  (Ks.map fun K => sumOver bits ins (fun x => sumOver bits ins (fun x' =>
    K (outs.map w ++ ins.map x) * ρ x x' * star (K (outs.map w' ++ ins.map x'))) w') w).sum

end Verif
