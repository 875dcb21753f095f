import Verif.Spec.Network
import Verif.Spec.Value
/-! # Specification: admissible fixed and sliced edges -/

namespace Verif

variable {τ : Type}

/-- The sliced edges (an edge may be listed twice) exist, carry a positive dimension, are not fixed and lie on a leg
of some node.  If an open edge is sliced, some sliced edge has a dimension other than one. -/
structure SliceOK (tn : TN τ) (split : List Nm) : Prop where
  ok : ∀ e ∈ split, ∃ d, tn.edges.get? e = some ⟨some d, none⟩ ∧ 0 < d
  attached : ∀ e ∈ split, ∃ n r, tn.nodes.get? n = some r ∧ e ∈ r.legs
  proper : (∀ e ∈ split, e ∉ tn.openE) ∨ ∃ e ∈ split, tn.edges.get? e ≠ some ⟨some 1, none⟩

/-- Every fixed edge is fixed to one value, in the range of its dimension. -/
def FixOK (tn : TN τ) : Prop :=
  ∀ e r l, tn.edges.get? e = some r → r.fix = some l → ∃ v d, l = [v] ∧ r.dim = some d ∧ v < d

/-- The part of the value of the network in which the sliced edges take the values `σ`. -/
def TN.sliceValue {R : Type} [CommSemiring R] (val : τ → List Nat → R) (tn : TN τ) (split : List Nm) (σ : Nm → Nat)
    (idx : List Nat) : R :=
  einsum (fun e => if e ∈ split then tn.dom e ∩ {σ e} else tn.dom e) (tn.factors val) tn.openE idx

/-- The dimension of an edge (0 if unknown). -/
def TN.dimOf (tn : TN τ) (e : Nm) : Nat := ((tn.edges.get? e).bind EdgeRec.dim).getD 0

/-- The array is the part of the value with the sliced edges at `σ`; its indices are the open edges that are
not sliced. -/
def IsSlice {R : Type} [CommSemiring R] (val : τ → List Nat → R) (tn : TN τ) (split : List Nm) (σ : Nm → Nat)
    (r : Arr R) : Prop :=
  r.shape = (tn.openE.filter (· ∉ split)).map tn.dimOf ∧
  ∀ b : Nm → Nat, (∀ e ∈ tn.openE, b e < tn.dimOf e) → (∀ e ∈ tn.openE, e ∈ split → b e = σ e) →
    r.get ((tn.openE.filter (· ∉ split)).map b) = tn.sliceValue val split σ (tn.openE.map b)

end Verif
