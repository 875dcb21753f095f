import Verif.Model.Orders
import Verif.Model.Cost
/-!
# Model of `subscript_to_path` and of the cost in `order_to_contraction_scheme` (acqdp/tensor_network/local_optimizer.py)

`opt_einsum.contract_path` is a parameter: what it answers for a method and a step.
-/

namespace Verif

/-- The values of `optimize` that are passed to opt_einsum (local_optimizer.py:112, 118, 120). -/
inductive PathMethod where
  | auto
  | optimal
  | dp
  deriving DecidableEq

/-- What `opt_einsum.contract_path` returns: the path, `opt_cost` and `largest_intermediate` (`none`: it raises). -/
abbrev PathSearch (E : Type) := PathMethod → E → Option (List (List Nat) × Nat × Nat)

/-- local_optimizer.py:21-28: the attributes of `OrderResolver`. -/
structure Resolver where
  optimal : Nat := 8
  dp : Nat := 20
  thres : Nat := 10 ^ 8

/-- local_optimizer.py:116-120: the method of the second search, for the number of operands and the cost of the first path. -/
def Resolver.second (r : Resolver) (n cost : Nat) : Option PathMethod :=
  if n > 2 ∧ cost > r.thres then
    if n < r.optimal then some .optimal
    else if n < r.dp then some .dp
    else none
  else none

/-- local_optimizer.py:106-127: `subscript_to_path` (`none`: opt_einsum raises); `n` is `len(lhs)`. -/
def subscriptToPath {E : Type} (r : Resolver) (search : PathSearch E) (n : Nat) (x : E) : Option (List (List Nat) × Cost) :=
  match search .auto x with
  | none => none
  | some first =>
    match r.second n first.2.1 with
    | none => some (first.1, ⟨first.2.1, first.2.2, 0⟩)
    | some m => (search m x).map fun p => (p.1, ⟨p.2.1, p.2.2, 0⟩)

/-- local_optimizer.py:30-44: `order_to_contraction_scheme`: the loop over the steps with their subscripts, the order and its cost. -/
def schemeLoop {E : Type} (r : Resolver) (search : PathSearch E) : List (OrderStep × E) → Int → Cost → Option (List OrderStep × Cost)
  | [], _, c => some ([], c)
  | (s, x) :: l, k, c =>
    match subscriptToPath r search s.1.length x with
    | none => none
    | some res =>
      match pathToPaired s res.1 k with
      | none => none
      | some (new, k') => (schemeLoop r search l k' (c.iadd res.2)).map fun p => (new ++ p.1, p.2)

/-- local_optimizer.py:30-44: `order_to_contraction_scheme`, for the order and the subscripts of its steps. -/
def orderToScheme {E : Type} (r : Resolver) (search : PathSearch E) (order : List OrderStep) (subs : List E) : Option (List OrderStep × Cost) :=
  schemeLoop r search (order.zip subs) (counterStart order) Cost.zero

end Verif
