import Verif.Model.Task
import Mathlib.Analysis.SpecialFunctions.Log.Basic
import Mathlib.Analysis.SpecialFunctions.Exp
/-! # Model: normalisation in `contractor.py` over the complex numbers -/

namespace Verif

/-- All index lists of an array of the given shape (row-major), what `max` in contractor.py:107 ranges over. -/
def allIdx : List Nat → List (List Nat)
  | [] => [[]]
  | d :: s => (List.range d).flatMap fun i => (allIdx s).map (i :: ·)

/-- contractor.py:107-108: `max(res.real ** 2 + res.imag ** 2) ** 0.5`.  Simplification: for an array without
entries, where numexpr raises, this is 0. -/
noncomputable def maxNorm (a : Arr ℂ) : ℝ :=
  Real.sqrt (((allIdx a.shape).map fun i => (a.get i).re ^ 2 + (a.get i).im ^ 2).foldr max 0)

/-- contractor.py:109-113: `none` for a zero norm, else `(log norm, res / norm)`. -/
noncomputable def normC (a : Arr ℂ) : Option (ℝ × Arr ℂ) :=
  open Classical in
  if maxNorm a = 0 then none else some (Real.log (maxNorm a), ⟨a.shape, fun i => a.get i / (maxNorm a : ℂ)⟩)

/-- contractor.py:121: `numpy.exp` of a log-norm. -/
noncomputable def expC (s : ℝ) : ℂ := (Real.exp s : ℂ)

/-- contractor.py:65-122 with `normalize=True` (`ord`: index order of opt_einsum intermediates). -/
noncomputable def normEngine (ord : List Nm → List Nm) : Engine ℝ ℂ := ⟨ord, some normC⟩

/-- contractor.py:65-122 with `normalize=False`. -/
def flatEngine (ord : List Nm → List Nm) : Engine ℝ ℂ := ⟨ord, none⟩

end Verif
