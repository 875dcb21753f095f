import Verif.Model.Task
/-! # Specification: engines and data -/

namespace Verif

variable {R : Type} [CommSemiring R] {L : Type} [AddCommMonoid L]

/-- The index lists of an array of the given shape. -/
def InRange (shape idx : List Nat) : Prop := List.Forall₂ (· < ·) idx shape

/-- What is required of the environment: opt_einsum only permutes the indices of intermediates; the
exponential of the log-norm 0 is 1; normalisation splits an array into a log-norm and an array of the same
shape whose product is the array, or finds that all entries are zero. -/
structure Engine.Sound (E : Engine L R) (ex : L → R) : Prop where
  ord : ∀ l, (E.ord l).Perm l
  ex_zero : ex 0 = 1
  nrm_some : ∀ f a l a', E.nrm = some f → f a = some (l, a') →
    a'.shape = a.shape ∧ ∀ idx, InRange a.shape idx → ex l * a'.get idx = a.get idx
  nrm_none : ∀ f a, E.nrm = some f → f a = none → ∀ idx, InRange a.shape idx → a.get idx = 0

end Verif
