import Mathlib.Algebra.Order.Group.Nat
/-!
# Model of `ContractionCost` (acqdp/tensor_network/contraction.py)

Flops, width and slice count are natural numbers (in the code: Python integers, or floats coming from
opt_einsum; rounding is not modelled).
-/

namespace Verif

/-- contraction.py:7-19: the attributes `s` (flops), `t` (largest intermediate), `k` (sliced indices). -/
@[ext] structure Cost where
  s : Nat
  t : Nat
  k : Nat
  deriving DecidableEq, Repr

/-- contraction.py:16: `ContractionCost()`. -/
def Cost.zero : Cost := ⟨0, 0, 0⟩

/-- contraction.py:21-22: `__add__`; the slice count of the result is the default 0. -/
def Cost.add (a b : Cost) : Cost := ⟨a.s + b.s, max a.t b.t, 0⟩

/-- contraction.py:24-27: `__iadd__`; the slice count of `self` stays. -/
def Cost.iadd (a b : Cost) : Cost := ⟨a.s + b.s, max a.t b.t, a.k⟩

/-- contraction.py:29-30: `__eq__`. -/
def Cost.eq (a b : Cost) : Bool := a.s * 2 ^ a.k == b.s * 2 ^ b.k && a.t == b.t

/-- contraction.py:32-33: `__lt__`. -/
def Cost.lt (a b : Cost) : Bool := decide (a.s * 2 ^ a.k < b.s * 2 ^ b.k)

/-- local_optimizer.py:32,39: accumulation `cost = ContractionCost(); cost += c` over the steps. -/
def Cost.accumulate (cs : List Cost) : Cost := cs.foldl Cost.iadd Cost.zero

end Verif
