import Verif.Model.Valid
import Verif.Model.Value
import Verif.Model.Sum
/-!
# Model of `is_ready` (acqdp/tensor_network/tensor.py, tensor_network.py, tensor_sum.py, tensor_view.py)
-/

namespace Verif

namespace TVal

variable {R : Type}

/-- tensor_sum.py:62-76: `is_valid` of a sum: whether reading `shape` raises no `ValueError`.
Simplification: nothing is cached. -/
def sumValid (ts : List (Nm × TVal R)) : Bool :=
  match TSum.scan ts none with
  | .ok _ => true
  | .error _ => false

mutual
/-- The `is_ready` properties: tensor.py:71-82, tensor_network.py:181-198, tensor_sum.py:78-91, tensor_view.py:44-55
(`none`: an exception, at a node without a tensor or an edge that does not exist). -/
def isReady : TVal R → Option Bool
  | .ten a => some a.isSome
  | .net ns es adj op c => readyNodes ⟨ns, es, adj, op, c⟩ ns
  | .sum ts =>
    match readyTerms ts with
    | some true => some (sumValid ts)
    | r => r
  | .view t => isReady t

/-- tensor_network.py:191-198: the loop over the nodes. -/
def readyNodes (tn : TN (TVal R)) : List (Nm × NodeRec (TVal R)) → Option Bool
  | [] => some true
  | (_, ⟨_, none, _⟩) :: _ => none
  | (n, ⟨_, some t, _⟩) :: ns =>
    match isReady t with
    | none => none
    | some false => some false
    | some true =>
      match tn.graphShape n with
      | none => none
      | some sh => if some sh = t.shape then readyNodes tn ns else some false

/-- tensor_sum.py:88-90: the loop over the terms. -/
def readyTerms : List (Nm × TVal R) → Option Bool
  | [] => some true
  | (_, t) :: ts =>
    match isReady t with
    | some true => readyTerms ts
    | r => r
end

end TVal

end Verif
