import Verif.Spec.Einsum
import Verif.Base.Name
/-!
# Specification: what a list of einsums with letters computes

Letters are numbers.  As in `opt_einsum`, the dimension of a letter is the one of an operand that has it.
-/

namespace Verif

/-- An einsum: the letters of the operands, the letters of the result, the shapes of the operands. -/
structure Subs where
  lhs : List (List Nat)
  rhs : List Nat
  shapes : List (List Nat)

namespace Subs

variable {R : Type} [CommSemiring R]

/-- The dimension of a letter: at its first place in the operands. -/
def dim (s : Subs) (l : Nat) : Nat := ((s.lhs.flatten.zip s.shapes.flatten).find? fun p => p.1 == l).elim 0 Prod.snd

/-- The result of the einsum for given operands. -/
def eval (s : Subs) (ts : List (List Nat → R)) : List Nat → R :=
  einsum (fun l => Finset.range (s.dim l)) (List.zipWith Factor.mk s.lhs ts) s.rhs

/-- Carrying out the einsums for the steps of an order (names of the operands, name of the result) one after the other. -/
def run (env : Nm → List Nat → R) : List ((List Nm × Nm) × Subs) → Nm → List Nat → R
  | [] => env
  | (o, s) :: l => run (Function.update env o.2 (s.eval (o.1.map env))) l

end Subs

end Verif
