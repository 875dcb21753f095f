import Verif.Model.Ops
/-!
# Model of tensor-valued objects (acqdp/tensor_network/tensor*.py): the data type and the `shape` property
-/

namespace Verif

/-- A `numpy.ndarray`: its shape and its entries (only entries at indices inside the shape matter; dtype and
strides are not modelled). -/
structure Arr (R : Type) where
  shape : List Nat
  get : List Nat → R

/-- The classes `Tensor` (tensor.py:6-34), `TensorNetwork` (tensor_network.py:17-42), `TensorSum`
(tensor_sum.py:7-21) and `TensorView` (tensor_view.py:6-31).  A network carries the attributes of `TN`
(spelled out because the type is recursive).  Only the default view function, `numpy.conj`, is modelled. -/
inductive TVal (R : Type) where
  | ten (data : Option (Arr R))
  | net (nodes : List (Nm × NodeRec (TVal R))) (edges : Dict Nm EdgeRec) (adj : List (Nm × Nm))
      (openE : List Nm) (idCount : Nat)
  | sum (terms : List (Nm × TVal R))
  | view (ref : TVal R)

namespace TVal

variable {R : Type}

/-- A network as a tensor-valued object (no code: a change of representation). -/
def ofTN (tn : TN (TVal R)) : TVal R := .net tn.nodes tn.edges tn.adj tn.openE tn.idCount

/-- tensor_sum.py:29-41: `_update_shape` for two known shapes (`none`: `ValueError`). -/
def mergeDims : List (Option Nat) → List (Option Nat) → Option (List (Option Nat))
  | [], [] => some []
  | none :: c, t :: ts => (mergeDims c ts).map (t :: ·)
  | some d :: c, none :: ts => (mergeDims c ts).map (some d :: ·)
  | some d :: c, some d' :: ts => if d = d' then (mergeDims c ts).map (some d :: ·) else none
  | _, _ => none

mutual
/-- The `shape` properties: tensor.py:34-48, tensor_network.py:138-141, tensor_sum.py:47-60,
tensor_view.py:37-47.  Simplification: `ValueError` (incompatible terms of a sum) and `KeyError` (missing
open edge) are identified with an unknown shape; the cache of a sum is modelled separately. -/
def shape : TVal R → Option (List (Option Nat))
  | .ten none => none
  | .ten (some a) => some (a.shape.map some)
  | .net ns es adj op c => TN.shape? ⟨ns, es, adj, op, c⟩
  | .sum ts => termsShape ts none
  | .view t => t.shape

/-- tensor_sum.py:54-58: the loop over the terms. -/
def termsShape : List (Nm × TVal R) → Option (List (Option Nat)) → Option (List (Option Nat))
  | [], c => c
  | (_, t) :: ts, c =>
    match t.shape, c with
    | none, c => termsShape ts c
    | some s, none => termsShape ts (some s)
    | some s, some c => termsShape ts (mergeDims c s)
end

instance : NetTensor (TVal R) where
  shape := TVal.shape
  ofNet := ofTN
  shape_ofNet := fun t => by unfold ofTN; rw [shape]

/-- A `Tensor` holding an array. -/
def _root_.Verif.arrVal (shape : List Nat) (get : List Nat → R) : TVal R := .ten (some ⟨shape, get⟩)

theorem shape_def (t : TVal R) : HasShape.shape t = t.shape := rfl

end TVal

end Verif
