import Verif.Model.Ops
/-!
# Model of `is_valid` of a network (acqdp/tensor_network/tensor_network.py)
-/

namespace Verif

namespace TN

variable {τ : Type}

/-- tensor_network.py:167, 195: `[self.network.nodes[e]['dim'] for e in self.network[node]]`, read through
the incidence graph (`none`: an edge record is missing). -/
def graphShape (tn : TN τ) (n : Nm) : Option (List (Option Nat)) :=
  (tn.adjOfNode n).mapM fun e => (tn.edges.get? e).map EdgeRec.dim

/-- tensor_network.py:174-178: no position with two different definite dimensions. -/
def noConflict : List (Option Nat) → List (Option Nat) → Bool
  | some a :: l, some b :: l' => a == b && noConflict l l'
  | _ :: l, _ :: l' => noConflict l l'
  | _, _ => true

/-- tensor_network.py:166-178: the loop body of `is_valid` for one node (`none`: `KeyError`). -/
def nodeValid [HasShape τ] (tn : TN τ) (p : Nm × NodeRec τ) : Option Bool :=
  match tn.graphShape p.1, p.2.ten with
  | some shape, some t =>
    match HasShape.shape t with
    | none => some true
    | some lst => some (lst.length == shape.length && noConflict lst shape)
  | _, _ => none

/-- tensor_network.py:157-179: `is_valid`. -/
def isValidLoop [HasShape τ] (tn : TN τ) : List (Nm × NodeRec τ) → Option Bool
  | [] => some true
  | p :: ps =>
    match tn.nodeValid p with
    | none => none
    | some false => some false
    | some true => isValidLoop tn ps

/-- tensor_network.py:157-179: `is_valid` (`none`: it raises). -/
def isValid [HasShape τ] (tn : TN τ) : Option Bool := tn.isValidLoop tn.nodes

end TN

end Verif
