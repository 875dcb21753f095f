import Verif.Spec.Qaoa
import Mathlib.Analysis.Complex.Trigonometric
/-!
# Specification: the QAOA state and the mean energy

Layers are numbered from the last one: `β i` and `γ i` are the angles of the layer that has `i - 1` layers after it.
-/

namespace Verif

/-- The rotation of a qubit: `cos θ + i sin θ X`. -/
noncomputable def mixer (θ : ℝ) (a b : Nat) : ℂ := if a = b then (Real.cos θ : ℂ) else Complex.I * (Real.sin θ : ℂ)

/-- The QAOA state without its factor `2^(-n/2)`. -/
noncomputable def qaoaPsi (V : List Nm) (clauses : List (List Nm)) (cost : List Nm → List Nat → ℝ) (β γ : Nat → ℝ) (L : Nat) (x : Nm → Nat) : ℂ :=
  qaoaAmp V clauses (fun i => mixer (β i)) (fun i c idx => Complex.exp (((γ i * cost c idx : ℝ) : ℂ) * Complex.I)) L 1 x

/-- The probability of an assignment. -/
noncomputable def qaoaProb (V : List Nm) (clauses : List (List Nm)) (cost : List Nm → List Nat → ℝ) (β γ : Nat → ℝ) (L : Nat) (x : Nm → Nat) : ℝ :=
  Complex.normSq (qaoaPsi V clauses cost β γ L x) / 2 ^ V.length

/-- The mean of a function of the assignment. -/
noncomputable def qaoaExpect (V : List Nm) (clauses : List (List Nm)) (cost : List Nm → List Nat → ℝ) (β γ : Nat → ℝ) (L : Nat) (f : (Nm → Nat) → ℝ) : ℝ :=
  sumOver bitDom V (fun x => f x * qaoaProb V clauses cost β γ L x) fun _ => 0

/-- The energy of an assignment. -/
noncomputable def costOf (clauses : List (List Nm)) (cost : List Nm → List Nat → ℝ) (x : Nm → Nat) : ℝ := (clauses.map fun c => cost c (c.map x)).sum

end Verif
