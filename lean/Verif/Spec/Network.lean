import Verif.Model.TN
import Verif.Spec.Einsum
/-!
# Specification: consistency and value of a network

Only the state representation is used, none of the model's operations.
-/

namespace Verif

variable {τ : Type}

/-- C11: every leg and every open edge names an existing edge, and the incidence graph links a node to
exactly the edges on its legs (dictionaries have distinct keys, the graph has no double links). -/
structure TN.Consistent (tn : TN τ) : Prop where
  nodes_nodup : tn.nodes.keys.Nodup
  edges_nodup : tn.edges.keys.Nodup
  legs_exist : ∀ n r, tn.nodes.get? n = some r → ∀ e ∈ r.legs, e ∈ tn.edges.keys
  open_exist : ∀ e ∈ tn.openE, e ∈ tn.edges.keys
  adj_iff : ∀ n e, (n, e) ∈ tn.adj ↔ ∃ r, tn.nodes.get? n = some r ∧ e ∈ r.legs
  adj_nodup : tn.adj.Nodup

/-- The values an edge ranges over: its fix if it is fixed, else `0 .. dim-1`. -/
def EdgeRec.dom (r : EdgeRec) : Finset Nat :=
  match r.fix with
  | some l => l.toFinset
  | none => Finset.range (r.dim.getD 0)

/-- The values an edge of the network ranges over. -/
def TN.dom (tn : TN τ) (e : Nm) : Finset Nat :=
  match tn.edges.get? e with
  | some r => r.dom
  | none => ∅

/-- The factor of a node, given the entries `val t` of tensor values. -/
def NodeRec.factor {R : Type} [Zero R] (val : τ → List Nat → R) (r : NodeRec τ) : Factor Nm R :=
  ⟨r.legs, match r.ten with | some t => val t | none => fun _ => 0⟩

/-- The factors of a network. -/
def TN.factors {R : Type} [Zero R] (val : τ → List Nat → R) (tn : TN τ) : List (Factor Nm R) :=
  tn.nodes.map fun p => p.2.factor val

/-- C01: the tensor a network stands for, given the entries of the tensors at its nodes: the sum over
all values of the edges of the product of the node entries. -/
def TN.value {R : Type} [CommSemiring R] (val : τ → List Nat → R) (tn : TN τ) (idx : List Nat) : R :=
  einsum tn.dom (tn.factors val) tn.openE idx

end Verif
