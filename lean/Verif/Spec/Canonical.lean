import Verif.Model.TN
/-!
# Specification: networks an Einstein-summation routine accepts

`numpy.einsum` takes no repeated output index and no output index that is missing from the inputs.
-/

namespace Verif

/-- The open edges are distinct, each lies on a leg of some node and none is fixed; there is at least one
node. -/
structure TN.Canonical {τ : Type} (tn : TN τ) : Prop where
  nodup : tn.openE.Nodup
  attached : ∀ e ∈ tn.openE, ∃ n r, tn.nodes.get? n = some r ∧ e ∈ r.legs
  unfixed : ∀ e ∈ tn.openE, ∀ r, tn.edges.get? e = some r → r.fix = none
  nonempty : tn.nodes ≠ []

end Verif
