import Verif.Model.TN
/-!
# Specification: tensors fitting their edges

A toy tensor type that only carries a shape (for concrete examples), and what it means that the tensor of
a node fits the edges its legs lie on.
-/

namespace Verif

/-- The tensor of a node fits: it has as many dimensions as the node has legs, and on every leg its
dimension, when definite, does not contradict a definite dimension of the edge. -/
def TN.NodeFits {τ : Type} [HasShape τ] (tn : TN τ) (r : NodeRec τ) : Prop :=
  ∀ t sh, r.ten = some t → HasShape.shape t = some sh →
    sh.length = r.legs.length ∧
    ∀ (i : Nat) e d d', r.legs[i]? = some e → sh[i]? = some (some d) →
      (tn.edges.get? e).bind EdgeRec.dim = some d' → d = d'

/-- The node holds a tensor of definite shape that matches the definite dimensions of its edges. -/
def TN.NodeReady {τ : Type} [HasShape τ] (tn : TN τ) (r : NodeRec τ) : Prop :=
  ∃ (t : τ) (sh : List Nat), r.ten = some t ∧ HasShape.shape t = some (sh.map some) ∧ sh.length = r.legs.length ∧
    ∀ (i : Nat) e, r.legs[i]? = some e → ∃ er, tn.edges.get? e = some er ∧ er.dim = sh[i]?

/-- All tensors and all open edges have definite, matching dimensions. -/
structure TN.Ready {τ : Type} [HasShape τ] (tn : TN τ) : Prop where
  nodes : ∀ n r, tn.nodes.get? n = some r → tn.NodeReady r
  opens : ∀ e ∈ tn.openE, ∃ er d, tn.edges.get? e = some er ∧ er.dim = some d

/-- Every node whose shape is known fits. -/
def TN.AllFit {τ : Type} [HasShape τ] (tn : TN τ) : Prop :=
  ∀ n r, tn.nodes.get? n = some r → tn.NodeFits r

end Verif
