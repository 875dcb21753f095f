import Verif.Model.ContractFull
import Verif.Model.Algebra
import Verif.Spec.Index
import Verif.Spec.Engine
import Mathlib.Analysis.Complex.Norm
import Mathlib.Analysis.Real.Sqrt
/-!
# Model of `==`, `norm_squared` and `normalize` (acqdp/tensor_network/tensor_valued.py:51-58, 124-132, 176-182, tensor.py:84-87)

Complex numbers instead of floats. `none` is an exception or no number.
-/

namespace Verif

namespace TVal

open Classical in
/-- tensor_valued.py:130: `numpy.allclose(x, y)` with numpy's default tolerances, arrays of one shape; broadcasting is not modelled. -/
noncomputable def allClose (x y : Arr ℂ) : Option Bool :=
  if x.shape = y.shape then some (decide (∀ idx, InRange x.shape idx → ‖x.get idx - y.get idx‖ ≤ 1 / 10 ^ 8 + 1 / 10 ^ 5 * ‖y.get idx‖)) else none

variable {L : Type} [AddCommMonoid L]

/-- tensor_valued.py:124-132: `a == b` for objects of this package; `same` is `a is b`. -/
noncomputable def eqVal (B : Backend L ℂ) (k : Nat) (same : Bool) (a b : TVal ℂ) : Option Bool :=
  if same then some true
  else if a.shape ≠ b.shape then some false
  else
    match contract B k B a, contract B k B b with
    | some x, some y => allClose x y
    | _, _ => none

/-- tensor.py:84-87 and tensor_valued.py:176-182: `norm_squared`; `ib` identifies `~self`. -/
noncomputable def normSquared (B : Backend L ℂ) (k : Nat) (ia : Nm) (t : TVal ℂ) (ib : Nm) : Option ℝ :=
  match t with
  | .ten none => none
  | .ten (some a) => some (Real.sqrt (sumIdx a.shape fun idx => ‖a.get idx‖ ^ 2) ^ 2)
  | t =>
    match normNet ia t ib with
    | .error _ => none
    | .ok c => (contract B k B c).map fun r => (r.get []).re

/-- tensor_valued.py:51-58: `normalize`; `i1` identifies the tensor made of the number. The number is infinite if the norm is 0. -/
noncomputable def normalize (B : Backend L ℂ) (k : Nat) (ia : Nm) (t : TVal ℂ) (ib i1 : Nm) : Option (TVal ℂ) :=
  match normSquared B k ia t ib with
  | none => none
  | some x => if x = 0 then none else (mul ia t i1 (scalar ((1 / Real.sqrt x : ℝ) : ℂ))).toOption

end TVal

end Verif
