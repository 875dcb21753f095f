import Mathlib.Analysis.SpecialFunctions.Complex.Circle
import Mathlib.LinearAlgebra.Matrix.Notation
import Mathlib.LinearAlgebra.Matrix.ConjTranspose
import Mathlib.Analysis.Complex.Trigonometric
import Mathlib.Analysis.SpecialFunctions.Sqrt
/-!
# Model of the gate constants and of the noise channels (acqdp/circuit/circuit.py:597-750, :1157-1179, noise.py:5-46)

The arrays passed to the constructors, over the exact real and complex numbers.
-/

namespace Verif

namespace Gate

open Complex Matrix

/-- Matrices on one qubit, `T[out, in]` (circuit.py:412-425, :499-504; output edges first: converter.py:110). -/
abbrev M2 := Matrix (Fin 2) (Fin 2) ℂ

/-- Matrices on two qubits, `T[out1, out2, in1, in2]` at rows `(out1, out2)` and columns `(in1, in2)`. -/
abbrev M4 := Matrix (Fin 2 × Fin 2) (Fin 2 × Fin 2) ℂ

/-- The matrix of a diagonal gate on one qubit (converter.py:41-60 with `shape = ['c']`: both open edges are the
one edge of the tensor). -/
def diag1 (d : Fin 2 → ℂ) : M2 := fun o i => if o = i then d i else 0

/-- The matrix of a diagonal gate on two qubits (converter.py:41-60 with `shape = ['c', 'c']`). -/
def diag2 (d : Fin 2 → Fin 2 → ℂ) : M4 := fun o i => if o.1 = i.1 ∧ o.2 = i.2 then d i.1 i.2 else 0

/-- The matrix of an operation with one control and one target qubit (converter.py:41-60 with `shape = ['c', 'io']`):
the control edge is both output and input. -/
def ctrl1 (t : Fin 2 → M2) : M4 := fun o i => if o.1 = i.1 then t i.1 o.2 i.2 else 0

/-- circuit.py:597. -/
def xGate : M2 := !![0, 1; 1, 0]

/-- circuit.py:600. -/
def yGate : M2 := !![0, I; -I, 0]

/-- circuit.py:603: the diagonal. -/
def zDiag : Fin 2 → ℂ := ![1, -1]

/-- circuit.py:606. -/
noncomputable def hGate : M2 := (Real.sqrt 0.5 : ℂ) • !![1, 1; 1, -1]

/-- circuit.py:609: the diagonal. -/
noncomputable def tDiag : Fin 2 → ℂ := ![1, (1 + I) * (Real.sqrt 0.5 : ℂ)]

/-- circuit.py:612: the diagonal. -/
def sDiag : Fin 2 → ℂ := ![1, I]

/-- circuit.py:639-641. -/
noncomputable def xHalf : M2 := (0.5 : ℂ) • !![1 + I, 1 - I; 1 - I, 1 + I]

/-- circuit.py:644-646. -/
noncomputable def yHalf : M2 := (0.5 : ℂ) • !![1 + I, -1 - I; 1 + I, 1 + I]

/-- circuit.py:636: the diagonal of CZ, indexed by the two qubits. -/
def czDiag : Fin 2 → Fin 2 → ℂ := ![![1, 1], ![1, -1]]

/-- circuit.py:649-651: `T[control, out, in]` of CNOT. -/
def cnotTensor : Fin 2 → M2 := ![!![1, 0; 0, 1], !![0, 1; 1, 0]]

/-- circuit.py:625-627: the identity gate is the network without nodes with open edges `[0, 0]`. -/
def iGate : M2 := fun o i => if o = i then 1 else 0

/-- circuit.py:631-633: the swap gate is the network without nodes with open edges `[0, 1, 1, 0]`. -/
def swapGate : M4 := fun o i => if o.1 = i.2 ∧ o.2 = i.1 then 1 else 0

/-- circuit.py:718-723: `XRotation(angle)`. -/
noncomputable def xRot (a : ℝ) : M2 := !![(Real.cos a : ℂ), I * Real.sin a; I * Real.sin a, Real.cos a]

/-- circuit.py:743-747: `ZRotation(angle)`, the diagonal. -/
noncomputable def zRot (a : ℝ) : Fin 2 → ℂ := ![exp (I * a), exp (-I * a)]

/-- circuit.py:1164-1166: `XXRotation(angle)`: the superposition of `I * I` and `X * X` with coefficients `cos`
and `i sin`. -/
noncomputable def xxRot (a : ℝ) : M4 := fun o i =>
  (Real.cos a : ℂ) * (iGate o.1 i.1 * iGate o.2 i.2) + (Real.sin a * I) * (xGate o.1 i.1 * xGate o.2 i.2)

/-- circuit.py:1176-1179: `ZZRotation(angle)`, the diagonal. -/
noncomputable def zzRot (a : ℝ) : Fin 2 → Fin 2 → ℂ :=
  ![![exp (I * a), exp (-I * a)], ![exp (-I * a), exp (I * a)]]

/-- The arrays of channels: `D[out, in, out', in']` (circuit.py:182-188, :224-236; the order of the
edges is the one of converter.py:185). -/
abbrev Chan := Fin 2 → Fin 2 → Fin 2 → Fin 2 → ℂ

/-- noise.py:20-25: `Depolarization(px, py, pz)`. -/
def depol (px py pz : ℝ) : Chan := fun o i o' i' =>
  ((![![![![1 - px - py, 0], ![0, 1 - 2 * pz - px - py]], ![![0, px + py], ![px - py, 0]]],
      ![![![0, px - py], ![px + py, 0]], ![![1 - px - py - 2 * pz, 0], ![0, 1 - px - py]]]] :
    Fin 2 → Fin 2 → Fin 2 → Fin 2 → ℝ) o i o' i' : ℝ)

/-- noise.py:16-19: the default arguments `py=None`, `pz=None`. -/
def depolDefault (px : ℝ) : Chan := depol px px px

/-- noise.py:36: `Dephasing(pz)`. -/
def dephase (pz : ℝ) : Chan := depol 0 0 pz

/-- noise.py:40-45: `AmplitudeDampling(p)`. -/
noncomputable def ampDamp (p : ℝ) : Chan := fun o i o' i' =>
  ((![![![![1, 0], ![0, Real.sqrt (1 - p)]], ![![0, p], ![0, 0]]],
      ![![![0, 0], ![0, 0]], ![![Real.sqrt (1 - p), 0], ![0, 1 - p]]]] :
    Fin 2 → Fin 2 → Fin 2 → Fin 2 → ℝ) o i o' i' : ℝ)

/-- circuit.py:262-268: the array built by `operation_from_kraus` for a list of one-qubit Kraus operators. Simplification: the
accumulator is complex here, in the code it is a real array (`np.zeros`, line 261). -/
noncomputable def kraus (ks : List M2) : Chan := fun o i o' i' => (ks.map fun k => k o i * star (k o' i')).sum

end Gate

end Verif
