import Verif.Spec.Engine
import Verif.Spec.Canonical
import Verif.Spec.Order
import Verif.Spec.Slices
import Verif.Spec.Shape
/-! # Specification: contracting a tensor gives its entries -/

namespace Verif

/-- `contract` turns the tensor value (of definite shape) into an array with the entries `val t`. -/
def Contracts {R τ : Type} [HasShape τ] (contract : τ → Option (Arr R)) (val : τ → List Nat → R) (t : τ) : Prop :=
  ∀ sh : List Nat, HasShape.shape t = some (sh.map some) →
    ∃ a : Arr R, contract t = some a ∧ a.shape = sh ∧ ∀ idx, InRange sh idx → a.get idx = val t idx

/-- A network the compiler accepts together with a list of sliced edges: consistent, of known dimensions, with
distinct, attached, unfixed open edges; every fixed edge is fixed to one value. -/
structure Runnable {τ : Type} [HasShape τ] (tn : TN τ) (split : List Nm) : Prop where
  cons : tn.Consistent
  canon : tn.Canonical
  ready : tn.Ready
  fix : FixOK tn
  slice : SliceOK tn split

/-- A scheme the compiler accepts: no order (one Einstein sum) or a valid pairwise order of all nodes, within
the memory limit. -/
structure SchemeOK {τ : Type} (tn : TN τ) (order : List (List Nm × Nm)) (memory width : Nat) : Prop where
  order : order = [] ∨ ∃ last, ValidOrder tn.nodes.keys order last ∧ Pairwise2 order
  memory : width * 3 * 2 ^ 4 ≤ memory * 2 ^ 30

/-- The two networks differ only in the values their fixed edges are fixed to. -/
structure SameButFix {τ : Type} (tn tn' : TN τ) : Prop where
  nodes : tn'.nodes = tn.nodes
  adj : tn'.adj = tn.adj
  openE : tn'.openE = tn.openE
  edges : List.Forall₂ (fun p q : Nm × EdgeRec => p.1 = q.1 ∧ p.2.dim = q.2.dim ∧ p.2.fix.isSome = q.2.fix.isSome)
    tn.edges tn'.edges

/-- The array represents the value of the network: its shape is the shape of the network and its entries are
the entries of the Einstein sum. -/
def Represents {R τ : Type} [CommSemiring R] [HasShape τ] (val : τ → List Nat → R) (tn : TN τ) (r : Arr R) : Prop :=
  tn.shape? = some (r.shape.map some) ∧ ∀ idx, InRange r.shape idx → r.get idx = tn.value val idx

/-- The two arrays have the same shape and the same entries. -/
def SameArr {R : Type} (a b : Arr R) : Prop := a.shape = b.shape ∧ ∀ idx, InRange a.shape idx → a.get idx = b.get idx

end Verif
