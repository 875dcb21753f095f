import Verif.Model.Value
import Verif.Spec.SumShape
import Verif.Spec.Expand
/-! # What it means that a tensor-valued object stands for a definite array (C78) -/

namespace Verif

namespace TVal

variable {R : Type}

/-- All arrays are given, the tensor at a node has exactly the dimensions of the edges on its legs, and the shapes of the
terms of a sum agree. -/
inductive Definite : TVal R → Prop
  | ten (a : Arr R) : Definite (.ten (some a))
  | net {tn : TN (TVal R)} {t : TVal R} : t = ofTN tn →
      (∀ n r, tn.nodes.get? n = some r → ∃ t, r.ten = some t ∧ t.shape = some (r.legs.map tn.edim)) →
      (∀ n r t, tn.nodes.get? n = some r → r.ten = some t → Definite t) → Definite t
  | sum {ts : List (Nm × TVal R)} : (∀ p ∈ ts, Definite p.2) → Compatible (ts.filterMap fun p => p.2.shape) →
      Definite (.sum ts)
  | view {t : TVal R} : Definite t → Definite (.view t)

end TVal

end Verif
