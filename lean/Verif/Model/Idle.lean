import Verif.Model.Gates
/-!
# Noise of the surface code demo

demo/QEC/noise_model.py:23-60, :104-126.
-/

namespace Verif

namespace Qec

open Complex

/-- demo/QEC/noise_model.py:5-18: the entries of `params` that are read by the functions modelled here. Simplification:
floats are real numbers. -/
structure Params where
  t1inv : ℝ
  tphiinv : ℝ
  pAxis : ℝ
  pPlane : ℝ
  alpha0 : ℝ
  kappa : ℝ
  chi : ℝ

/-- demo/QEC/noise_model.py:78-82: the dictionary `ts`. -/
structure Ts where
  start : ℝ
  fin : ℝ
  dt : ℝ

/-- demo/QEC/noise_model.py:44-47: one of the two terms `int_term_top`, `int_term_bot`. -/
noncomputable def intTerm (p : Params) (t : ℝ) : ℝ :=
  -Real.exp (-p.kappa * t) / (4 * p.chi ^ 2 + p.kappa ^ 2) *
    (p.kappa * Real.sin (2 * p.chi * t) + 2 * p.chi * Real.cos (2 * p.chi * t))

/-- demo/QEC/noise_model.py:34-50: `IdleGate.lamda(params, ts)`. -/
noncomputable def lamda (p : Params) (ts : Ts) : ℝ :=
  Real.exp (-(2 * p.chi * p.alpha0 * Real.exp (-p.kappa * ts.dt)) * (intTerm p ts.fin - intTerm p ts.start))

/-- demo/QEC/noise_model.py:26: `p_1_`. -/
noncomputable def keep (d : ℝ) (p : Params) : ℝ := Real.exp (-d * p.t1inv)

/-- demo/QEC/noise_model.py:27-29: `p_phi_`. -/
noncomputable def coh (d : ℝ) (p : Params) : Option Ts → ℝ
  | none => Real.exp (-d * p.tphiinv)
  | some ts => Real.exp (-d * p.tphiinv) * lamda p ts

/-- demo/QEC/noise_model.py:31: `data`, from `p_1_` and `p_xy`: a matrix with the rows and columns
`(out, in)`, `(out', in')`; circuit.py:234 reshapes it to four axes. -/
def idleData (p1 pxy : ℝ) : Fin 4 → Fin 4 → ℝ := fun r c =>
  (if r = c then (![1, 1 - p1, 0, p1] : Fin 4 → ℝ) r else 0) +
    (if Fin.rev r = c then (![pxy, 0, 0, pxy] : Fin 4 → ℝ) c else 0)

/-- circuit.py:234: `np.reshape` of a 4 × 4 array to shape (2, 2, 2, 2). -/
def reshape4 (a : Fin 4 → Fin 4 → ℝ) : Gate.Chan := fun o i o' i' =>
  (a (finProdFinEquiv (o, i)) (finProdFinEquiv (o', i')) : ℝ)

/-- demo/QEC/noise_model.py:24-32: the tensor of `IdleGate(duration, params, ts)`. -/
noncomputable def idle (d : ℝ) (p : Params) (ts : Option Ts) : Gate.Chan :=
  reshape4 (idleData (keep d p) (Real.sqrt (keep d p * coh d p ts)))

/-- demo/QEC/noise_model.py:58: the depolarisation after the Hadamard gate of `NoisyHGate(params)`. -/
noncomputable def hNoise (p : Params) : Gate.Chan :=
  Gate.depol (p.pAxis / 4) (p.pPlane / 2 - p.pAxis / 4) (p.pAxis / 4)

/-- demo/QEC/noise_model.py:124-126: the tensor of `NDCompMeas`: the network with open edges `[0, 0, 0, 0]` and the vector
of ones (`PH`) on edge 0. `v` is the vector of node `PH`. -/
def ndMeas (v : Fin 2 → ℂ) : Gate.Chan := fun o i o' i' =>
  if o = i ∧ o = o' ∧ o = i' then v o else 0

/-- demo/QEC/noise_model.py:114: the diagonal of the `NoisyCZ` gate with a table of angles. -/
noncomputable def noisyCz (a : ℝ) : Fin 2 → Fin 2 → ℂ := ![![1, 1], ![exp (I * a), -exp (-I * a)]]

/-- demo/QEC/noise_model.py:116: the diagonal of the `NoisyCZ` gate with one angle. -/
noncomputable def crossCz (a : ℝ) : Fin 2 → Fin 2 → ℂ := ![![1, 1], ![1, exp (I * a)]]

end Qec

end Verif
