import Verif.Model.Contract
import Verif.Model.Expand
import Mathlib.Algebra.Star.Basic
/-!
# Model of the `contract` methods of all tensor-valued objects, nested networks included
(tensor.py:102-106, tensor_view.py:106-107, tensor_sum.py:176-185, tensor_network.py:44-73)
-/

namespace Verif

variable {R : Type} [CommSemiring R] {L : Type} [AddCommMonoid L]

/-- What the keyword arguments of `contract` select (tensor_network.py:44-73): the memory limit of the compiler
(compiler.py:30-34), the order finder, the execution engine (contractor.py:27-31); and the behaviour of the libraries:
components of a graph, sorting. -/
structure Backend (L R : Type) where
  glue : TN.Glue
  memory : Nat
  finder : TN (TVal R) → Option Plan
  srt : List Nm → List Nm
  engine : Engine L R
  ex : L → R

/-- tensor_sum.py:181-185: `sum(res)` of the arrays of the terms.  Simplifications: the number 0 (no terms) and the
broadcasting of arrays of different shapes are modelled by `none`. -/
def plusArrs : List (Arr R) → Option (Arr R)
  | [] => none
  | a :: as => if ∀ b ∈ as, b.shape = a.shape then some ⟨a.shape, fun i => ((a :: as).map fun b => b.get i).sum⟩ else none

namespace TVal

variable [Star R]

/-- `contract` of a tensor (tensor.py:102-106), a view (tensor_view.py:106-107), a sum (tensor_sum.py:176-185; the
arguments are passed on to the terms) and a network (tensor_network.py:44-73: order finder and compiler both work on
`_expand_and_delta`, :704-705; compiler.py:51-54 calls `contract()` of the tensors at the nodes without arguments, so with
the default `B0`).  Recursion is bounded by the first number; `none`: an exception or no array. -/
def contract (B0 : Backend L R) : Nat → Backend L R → TVal R → Option (Arr R)
  | _, _, .ten a => a
  | 0, _, _ => none
  | k + 1, B, .view t => (contract B0 k B t).map fun a => ⟨a.shape, fun i => star (a.get i)⟩
  | k + 1, B, .sum ts => (ts.mapM fun p => contract B0 k B p.2).bind plusArrs
  | k + 1, B, .net ns es adj op c =>
    match expand B.glue (k + 1) ⟨ns, es, adj, op, c⟩ with
    | (_, .error _) => none
    | (tn', .ok ()) => (tn'.contractWith (contract B0 k B0) B.memory B.finder B.srt B.engine B.ex).toOption

end TVal

end Verif
