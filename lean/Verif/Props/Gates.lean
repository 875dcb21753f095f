import Verif.Model.Gates
import Mathlib.Analysis.Normed.Algebra.Exponential
import Mathlib.Analysis.SpecialFunctions.Trigonometric.Series
import Mathlib.LinearAlgebra.Matrix.Kronecker
import Mathlib.Topology.Instances.Matrix
import Mathlib.Tactic.Ring
import Mathlib.Tactic.LinearCombination
import Mathlib.Tactic.FieldSimp
/-!
# Rotation gates (C43), noise channels (C42) and named gates (C46)

The claims are stated with Mathlib's matrix product, conjugate transpose, Kronecker product and exponential.
-/

namespace Verif

set_option linter.unusedSectionVars false
set_option linter.unusedSimpArgs false
set_option linter.unnecessarySeqFocus false
set_option linter.unusedTactic false
set_option linter.unreachableTactic false

namespace Gate

open Complex Matrix
open scoped Kronecker

/-! ## Rotations -/

section Rot


variable {n : Type} [Fintype n] [DecidableEq n]

/-- `cos a + i sin a P`. -/
noncomputable def rot (P : Matrix n n ℂ) (a : ℝ) : Matrix n n ℂ := (Real.cos a : ℂ) • 1 + (I * Real.sin a) • P

theorem rot_mul {P : Matrix n n ℂ} (hP : P * P = 1) (a b : ℝ) : rot P b * rot P a = rot P (a + b) := by
  unfold rot
  rw [Real.cos_add, Real.sin_add]
  simp only [add_mul, mul_add, smul_mul_assoc, mul_smul_comm, one_mul, mul_one, hP]
  push_cast
  have h : I * I = -1 := I_mul_I
  match_scalars
  · linear_combination (Complex.sin a * Complex.sin b) * h
  · ring

theorem rot_zero (P : Matrix n n ℂ) : rot P 0 = 1 := by simp [rot]

theorem rot_adjoint {P : Matrix n n ℂ} (hP : Pᴴ = P) (a : ℝ) : (rot P a)ᴴ = rot P (-a) := by
  unfold rot
  rw [conjTranspose_add, conjTranspose_smul, conjTranspose_smul, hP, conjTranspose_one]
  have h1 : star ((Real.cos a : ℝ) : ℂ) = Real.cos a := Complex.conj_ofReal _
  have h2 : star ((Real.sin a : ℝ) : ℂ) = Real.sin a := Complex.conj_ofReal _
  have h3 : star I = -I := Complex.conj_I
  rw [star_mul, h1, h2, h3, Real.cos_neg, Real.sin_neg]
  push_cast
  congr 2
  ring

theorem rot_unitary {P : Matrix n n ℂ} (hP : P * P = 1) (hs : Pᴴ = P) (a : ℝ) :
    (rot P a)ᴴ * rot P a = 1 ∧ rot P a * (rot P a)ᴴ = 1 := by
  rw [rot_adjoint hs, rot_mul hP, rot_mul hP]
  simp [rot_zero]

theorem rot_exp {P : Matrix n n ℂ} (hP : P * P = 1) (a : ℝ) : NormedSpace.exp ((I * a) • P) = rot P a := by
  have he : ∀ k : ℕ, P ^ (2 * k) = 1 := fun k => by rw [pow_mul, pow_two, hP, one_pow]
  have ho : ∀ k : ℕ, P ^ (2 * k + 1) = P := fun k => by rw [pow_succ, he, one_mul]
  rw [NormedSpace.exp_eq_tsum ℂ]
  refine HasSum.tsum_eq ?_
  unfold rot
  refine HasSum.even_add_odd ?_ ?_
  · have h := (Complex.hasSum_cos' (a : ℂ)).smul_const (1 : Matrix n n ℂ)
    rw [← Complex.ofReal_cos] at h
    refine cast (congrArg (fun f => HasSum f _) (funext fun k => ?_)) h
    symm
    rw [smul_pow, he, smul_smul, mul_comm I (a : ℂ)]
    congr 1
    field_simp
  · have h := ((Complex.hasSum_sin' (a : ℂ)).mul_left I).smul_const P
    rw [← Complex.ofReal_sin] at h
    refine cast (congrArg (fun f => HasSum f _) (funext fun k => ?_)) h
    symm
    rw [smul_pow, ho, smul_smul, mul_comm I (a : ℂ)]
    congr 1
    field_simp

end Rot

theorem x_sq : xGate * xGate = 1 := by
  ext i j; fin_cases i <;> fin_cases j <;> simp [xGate, Matrix.mul_apply, Fin.sum_univ_two]

theorem x_adj : xGateᴴ = xGate := by
  ext i j; fin_cases i <;> fin_cases j <;> simp [xGate]

theorem z_sq : diag1 zDiag * diag1 zDiag = 1 := by
  ext i j; fin_cases i <;> fin_cases j <;> simp [diag1, zDiag, Matrix.mul_apply, Fin.sum_univ_two]

theorem z_adj : (diag1 zDiag)ᴴ = diag1 zDiag := by
  ext i j; fin_cases i <;> fin_cases j <;> simp [diag1, zDiag]

theorem kron_sq {P : M2} (h : P * P = 1) : (P ⊗ₖ P) * (P ⊗ₖ P) = (1 : M4) := by
  rw [← mul_kronecker_mul, h, one_kronecker_one]

theorem kron_adj {P : M2} (h : Pᴴ = P) : (P ⊗ₖ P)ᴴ = P ⊗ₖ P := by
  rw [conjTranspose_kronecker, h]

theorem xRot_eq (a : ℝ) : xRot a = rot xGate a := by
  ext i j; fin_cases i <;> fin_cases j <;> simp [xRot, rot, xGate]

theorem zRot_eq (a : ℝ) : diag1 (zRot a) = rot (diag1 zDiag) a := by
  have e1 : exp (I * a) = Complex.cos a + I * Complex.sin a := by
    rw [mul_comm, Complex.exp_mul_I]; ring
  have e2 : exp (-I * a) = Complex.cos a - I * Complex.sin a := by
    rw [show -I * (a : ℂ) = ((-a : ℂ)) * I by ring, Complex.exp_mul_I, Complex.cos_neg, Complex.sin_neg]; ring
  rw [neg_mul] at e2
  ext i j; fin_cases i <;> fin_cases j <;> simp [zRot, rot, zDiag, diag1, e1, e2] <;> ring

theorem iGate_eq : iGate = 1 := by ext i j; simp [iGate, Matrix.one_apply]

theorem xxRot_eq (a : ℝ) : xxRot a = rot (xGate ⊗ₖ xGate) a := by
  ext ⟨o1, o2⟩ ⟨i1, i2⟩
  rw [xxRot, iGate_eq]
  simp only [rot, Matrix.add_apply, Matrix.smul_apply, smul_eq_mul, kroneckerMap_apply, Matrix.one_apply, Prod.mk.injEq]
  have e : (if o1 = i1 then (1 : ℂ) else 0) * (if o2 = i2 then 1 else 0) = if o1 = i1 ∧ o2 = i2 then 1 else 0 := by
    by_cases h1 : o1 = i1 <;> by_cases h2 : o2 = i2 <;> simp [h1, h2]
  rw [e]
  ring

theorem zzRot_eq (a : ℝ) : diag2 (zzRot a) = rot (diag1 zDiag ⊗ₖ diag1 zDiag) a := by
  have e1 : exp (I * a) = Complex.cos a + I * Complex.sin a := by
    rw [mul_comm, Complex.exp_mul_I]; ring
  have e2 : exp (-I * a) = Complex.cos a - I * Complex.sin a := by
    rw [show -I * (a : ℂ) = ((-a : ℂ)) * I by ring, Complex.exp_mul_I, Complex.cos_neg, Complex.sin_neg]; ring
  rw [neg_mul] at e2
  ext ⟨o1, o2⟩ ⟨i1, i2⟩
  fin_cases o1 <;> fin_cases o2 <;> fin_cases i1 <;> fin_cases i2 <;>
    simp [zzRot, rot, zDiag, diag1, diag2, e1, e2, Matrix.one_apply] <;> ring

/-- What C43 asks of a family of gates `U a` with generator `P`: `U b` after `U a` is `U (a + b)`, the adjoint of `U a`
is `U (-a)`, `U a` is unitary, and `U a = cos a + i sin a P = exp (i a P)`. -/
structure OneParameter {n : Type} [Fintype n] [DecidableEq n] (U : ℝ → Matrix n n ℂ) (P : Matrix n n ℂ) : Prop where
  group : ∀ a b, U b * U a = U (a + b)
  adjoint : ∀ a, (U a)ᴴ = U (-a)
  unitary : ∀ a, (U a)ᴴ * U a = 1 ∧ U a * (U a)ᴴ = 1
  formula : ∀ a : ℝ, U a = (Real.cos a : ℂ) • 1 + (I * Real.sin a) • P
  exponential : ∀ a : ℝ, U a = NormedSpace.exp ((I * a) • P)

theorem oneParameter_of {n : Type} [Fintype n] [DecidableEq n] {U : ℝ → Matrix n n ℂ} {P : Matrix n n ℂ}
    (hU : ∀ a, U a = rot P a) (h1 : P * P = 1) (h2 : Pᴴ = P) : OneParameter U P := by
  obtain rfl : U = rot P := funext hU
  exact ⟨rot_mul h1, rot_adjoint h2, rot_unitary h1 h2, fun _ => rfl, fun a => (rot_exp h1 a).symm⟩

/-- C43 for `XRotation`. -/
theorem c43_x : OneParameter xRot !![0, 1; 1, 0] := oneParameter_of xRot_eq x_sq x_adj

/-- C43 for `ZRotation`. -/
theorem c43_z : OneParameter (fun a => diag1 (zRot a)) !![1, 0; 0, -1] := by
  have e : (!![1, 0; 0, -1] : M2) = diag1 zDiag := by
    ext i j; fin_cases i <;> fin_cases j <;> simp [diag1, zDiag]
  rw [e]
  exact oneParameter_of zRot_eq z_sq z_adj

/-- C43 for `XXRotation`. -/
theorem c43_xx : OneParameter xxRot (!![0, 1; 1, 0] ⊗ₖ !![0, 1; 1, 0]) :=
  oneParameter_of xxRot_eq (kron_sq x_sq) (kron_adj x_adj)

/-- C43 for `ZZRotation`. -/
theorem c43_zz : OneParameter (fun a => diag2 (zzRot a)) (!![1, 0; 0, -1] ⊗ₖ !![1, 0; 0, -1]) := by
  have e : (!![1, 0; 0, -1] : M2) = diag1 zDiag := by
    ext i j; fin_cases i <;> fin_cases j <;> simp [diag1, zDiag]
  rw [e]
  exact oneParameter_of zzRot_eq (kron_sq z_sq) (kron_adj z_adj)

/-! ## Noise -/

/-- The channel `ρ ↦ Σ wₖ Kₖ ρ Kₖ†` as a tensor. -/
noncomputable def mixture (l : List (ℝ × M2)) : Chan := fun o i o' i' =>
  (l.map fun p => (p.1 : ℂ) * (p.2 o i * star (p.2 o' i'))).sum

/-- The trace of the output is the trace of the input. -/
def TracePreserving (D : Chan) : Prop := ∀ i i', ∑ o, D o i o i' = if i = i' then 1 else 0

/-- C42: `Depolarization(px, py, pz)` applies X, Y, Z with the stated probabilities and else does nothing (Y is the
textbook one). -/
theorem c42_depol (px py pz : ℝ) : depol px py pz =
    mixture [(1 - px - py - pz, 1), (px, !![0, 1; 1, 0]), (py, !![0, -I; I, 0]), (pz, !![1, 0; 0, -1])] := by
  funext o i o' i'
  fin_cases o <;> fin_cases i <;> fin_cases o' <;> fin_cases i' <;> simp [depol, mixture] <;> ring

/-- C42: the same for the default arguments and for `Dephasing`. -/
theorem c42_default (p : ℝ) : depolDefault p =
    mixture [(1 - p - p - p, 1), (p, !![0, 1; 1, 0]), (p, !![0, -I; I, 0]), (p, !![1, 0; 0, -1])] := c42_depol p p p

theorem c42_dephase (p : ℝ) : dephase p = mixture [(1 - p, 1), (p, !![1, 0; 0, -1])] := by
  funext o i o' i'
  fin_cases o <;> fin_cases i <;> fin_cases o' <;> fin_cases i' <;> simp [dephase, depol, mixture] <;> ring

/-- C42: depolarisation preserves the trace, whatever the parameters. -/
theorem c42_depol_trace (px py pz : ℝ) : TracePreserving (depol px py pz) := by
  intro i i'
  fin_cases i <;> fin_cases i' <;> simp [depol, Fin.sum_univ_two]

/-- C42: `AmplitudeDampling(p)` has the Kraus operators `diag(1, √(1-p))` and `√p |0><1|`. -/
theorem c42_ampDamp {p : ℝ} (h0 : 0 ≤ p) (h1 : p ≤ 1) : ampDamp p =
    mixture [(1, !![1, 0; 0, (Real.sqrt (1 - p) : ℂ)]), (1, !![0, (Real.sqrt p : ℂ); 0, 0])] := by
  have e1 : (Real.sqrt p : ℂ) * (Real.sqrt p : ℂ) = p := by
    rw [← Complex.ofReal_mul, Real.mul_self_sqrt h0]
  have e2 : (Real.sqrt (1 - p) : ℂ) * (Real.sqrt (1 - p) : ℂ) = 1 - p := by
    rw [← Complex.ofReal_mul, Real.mul_self_sqrt (by linarith)]; push_cast; ring
  funext o i o' i'
  fin_cases o <;> fin_cases i <;> fin_cases o' <;> fin_cases i' <;> simp [ampDamp, mixture, e1, e2]

/-- C42: amplitude damping preserves the trace. -/
theorem c42_ampDamp_trace (p : ℝ) : TracePreserving (ampDamp p) := by
  intro i i'
  fin_cases i <;> fin_cases i' <;> simp [ampDamp, Fin.sum_univ_two]

/-- C42: `operation_from_kraus` builds the channel with these Kraus operators. -/
theorem c42_kraus (ks : List M2) : kraus ks = mixture (ks.map fun k => (1, k)) := by
  funext o i o' i'
  simp [kraus, mixture, Function.comp_def]

/-- `c42_ampDamp` at a non-trivial parameter. -/
example : ampDamp (1 / 4) = mixture [(1, !![1, 0; 0, (Real.sqrt (1 - 1 / 4) : ℂ)]), (1, !![0, (Real.sqrt (1 / 4) : ℂ); 0, 0])] :=
  c42_ampDamp (by norm_num) (by norm_num)

/-! ## Named gates -/

/-- Unitary. -/
def Uni {n : Type} [Fintype n] [DecidableEq n] (U : Matrix n n ℂ) : Prop := Uᴴ * U = 1 ∧ U * Uᴴ = 1

theorem half_sqrt : (Real.sqrt 0.5 : ℂ) * (Real.sqrt 0.5 : ℂ) = 1 / 2 := by
  rw [← Complex.ofReal_mul, Real.mul_self_sqrt (by norm_num)]; norm_num

theorem half_sqrt_sq : (Real.sqrt 0.5 : ℂ) ^ 2 = 1 / 2 := by rw [pow_two, half_sqrt]

theorem uni_of_self {n : Type} [Fintype n] [DecidableEq n] {U : Matrix n n ℂ} (h : Uᴴ = U) (h2 : U * U = 1) : Uni U := by
  unfold Uni; rw [h]; exact ⟨h2, h2⟩

theorem uni_of_left {n : Type} [Fintype n] [DecidableEq n] {U : Matrix n n ℂ} (h : Uᴴ * U = 1) : Uni U :=
  ⟨h, mul_eq_one_comm.1 h⟩

theorem y_adj : yGateᴴ = yGate := by
  ext i j; fin_cases i <;> fin_cases j <;> simp [yGate]

theorem y_sq : yGate * yGate = 1 := by
  ext i j; fin_cases i <;> fin_cases j <;> simp [yGate, Matrix.mul_apply, Fin.sum_univ_two]

theorem h_adj : hGateᴴ = hGate := by
  ext i j; fin_cases i <;> fin_cases j <;> simp [hGate]

theorem h_sq : hGate * hGate = 1 := by
  have e := half_sqrt
  ext i j; fin_cases i <;> fin_cases j <;> simp [hGate, Matrix.mul_apply, Fin.sum_univ_two] <;>
    first | done | linear_combination 2 * e

theorem cz_adj : (diag2 czDiag)ᴴ = diag2 czDiag := by
  ext ⟨o1, o2⟩ ⟨i1, i2⟩
  fin_cases o1 <;> fin_cases o2 <;> fin_cases i1 <;> fin_cases i2 <;> simp [diag2, czDiag]

theorem cz_sq : diag2 czDiag * diag2 czDiag = 1 := by
  ext ⟨o1, o2⟩ ⟨i1, i2⟩
  fin_cases o1 <;> fin_cases o2 <;> fin_cases i1 <;> fin_cases i2 <;>
    simp [diag2, czDiag, Matrix.mul_apply, Fintype.sum_prod_type, Fin.sum_univ_two, Matrix.one_apply]

theorem cnot_adj : (ctrl1 cnotTensor)ᴴ = ctrl1 cnotTensor := by
  ext ⟨o1, o2⟩ ⟨i1, i2⟩
  fin_cases o1 <;> fin_cases o2 <;> fin_cases i1 <;> fin_cases i2 <;> simp [ctrl1, cnotTensor]

theorem cnot_sq : ctrl1 cnotTensor * ctrl1 cnotTensor = 1 := by
  ext ⟨o1, o2⟩ ⟨i1, i2⟩
  fin_cases o1 <;> fin_cases o2 <;> fin_cases i1 <;> fin_cases i2 <;>
    simp [ctrl1, cnotTensor, Matrix.mul_apply, Fintype.sum_prod_type, Fin.sum_univ_two, Matrix.one_apply]

theorem swap_adj : swapGateᴴ = swapGate := by
  ext ⟨o1, o2⟩ ⟨i1, i2⟩
  fin_cases o1 <;> fin_cases o2 <;> fin_cases i1 <;> fin_cases i2 <;> simp [swapGate]

theorem swap_sq : swapGate * swapGate = 1 := by
  ext ⟨o1, o2⟩ ⟨i1, i2⟩
  fin_cases o1 <;> fin_cases o2 <;> fin_cases i1 <;> fin_cases i2 <;>
    simp [swapGate, Matrix.mul_apply, Fintype.sum_prod_type, Fin.sum_univ_two, Matrix.one_apply]

/-- C46: the gates flagged `self_adjoint` are. -/
theorem c46_self_adjoint : xGateᴴ = xGate ∧ yGateᴴ = yGate ∧ (diag1 zDiag)ᴴ = diag1 zDiag ∧ hGateᴴ = hGate ∧
    iGateᴴ = iGate ∧ swapGateᴴ = swapGate ∧ (diag2 czDiag)ᴴ = diag2 czDiag ∧
    (ctrl1 cnotTensor)ᴴ = ctrl1 cnotTensor :=
  ⟨x_adj, y_adj, z_adj, h_adj, by rw [iGate_eq, conjTranspose_one], swap_adj, cz_adj, cnot_adj⟩

theorem conj_half : (starRingEnd ℂ) (0.5 : ℂ) = 1 / 2 := by
  rw [show (0.5 : ℂ) = ((0.5 : ℝ) : ℂ) by push_cast; rfl, Complex.conj_ofReal]; push_cast; norm_num

/-- C46: all named gates are unitary. -/
theorem c46_unitary : Uni xGate ∧ Uni yGate ∧ Uni (diag1 zDiag) ∧ Uni hGate ∧ Uni (diag1 tDiag) ∧ Uni (diag1 sDiag) ∧
    Uni iGate ∧ Uni xHalf ∧ Uni yHalf ∧ Uni swapGate ∧ Uni (diag2 czDiag) ∧ Uni (ctrl1 cnotTensor) := by
  have e := half_sqrt
  have hI := I_mul_I
  refine ⟨uni_of_self x_adj x_sq, uni_of_self y_adj y_sq, uni_of_self z_adj z_sq, uni_of_self h_adj h_sq,
    uni_of_left ?_, uni_of_left ?_, ?_, uni_of_left ?_, uni_of_left ?_, uni_of_self swap_adj swap_sq,
    uni_of_self cz_adj cz_sq, uni_of_self cnot_adj cnot_sq⟩
  · ext i j; fin_cases i <;> fin_cases j <;> simp [diag1, tDiag, Matrix.mul_apply, Fin.sum_univ_two] <;>
      first | done | linear_combination 2 * e - (Real.sqrt 0.5 : ℂ) * (Real.sqrt 0.5 : ℂ) * hI
  · ext i j; fin_cases i <;> fin_cases j <;> simp [diag1, sDiag, Matrix.mul_apply, Fin.sum_univ_two]
  · rw [iGate_eq]; exact uni_of_self conjTranspose_one (one_mul 1)
  · ext i j; fin_cases i <;> fin_cases j <;> simp [xHalf, conj_half, Matrix.mul_apply, Fin.sum_univ_two] <;>
      first | done | (norm_num; linear_combination (-1 / 2) * hI) | (norm_num; linear_combination (1 / 2) * hI) | ring
  · ext i j; fin_cases i <;> fin_cases j <;> simp [yHalf, conj_half, Matrix.mul_apply, Fin.sum_univ_two] <;>
      first | done | (norm_num; linear_combination (-1 / 2) * hI) | (norm_num; linear_combination (1 / 2) * hI) | ring

/-- C46: the identities that hold.  Partial: the ones with Y fail, see `c46_y_violated`. -/
theorem c46_identities_partial :
    diag1 zDiag * xGate = I • !![0, -I; I, 0] ∧
    diag1 sDiag * diag1 sDiag = diag1 zDiag ∧ diag1 tDiag * diag1 tDiag = diag1 sDiag ∧
    xHalf * xHalf = xGate ∧ yHalf * yHalf = !![0, -I; I, 0] ∧ hGate * xGate * hGate = diag1 zDiag ∧
    (1 ⊗ₖ hGate) * diag2 czDiag * (1 ⊗ₖ hGate) = ctrl1 cnotTensor ∧
    ctrl1 cnotTensor * (ctrl1 cnotTensor).submatrix Prod.swap Prod.swap * ctrl1 cnotTensor = swapGate := by
  have e := half_sqrt
  have hI := I_mul_I
  refine ⟨?_, ?_, ?_, ?_, ?_, ?_, ?_, ?_⟩
  · ext i j; fin_cases i <;> fin_cases j <;> simp [diag1, zDiag, xGate, Matrix.mul_apply, Fin.sum_univ_two]
  · ext i j; fin_cases i <;> fin_cases j <;> simp [diag1, zDiag, sDiag, Matrix.mul_apply, Fin.sum_univ_two]
  · ext i j; fin_cases i <;> fin_cases j <;> simp [diag1, tDiag, sDiag, Matrix.mul_apply, Fin.sum_univ_two] <;>
      first | done | linear_combination (2 * I) * e + (Real.sqrt 0.5 : ℂ) * (Real.sqrt 0.5 : ℂ) * hI
            | linear_combination (2 * I) * e + (1 / 2) * hI
  · ext i j; fin_cases i <;> fin_cases j <;> simp [xHalf, xGate, Matrix.mul_apply, Fin.sum_univ_two] <;>
      first | done | (norm_num; linear_combination (1 / 2) * hI) | (norm_num; linear_combination (-1 / 2) * hI) | (norm_num; ring)
  · ext i j; fin_cases i <;> fin_cases j <;> simp [yHalf, Matrix.mul_apply, Fin.sum_univ_two] <;>
      first | done | (norm_num; linear_combination (1 / 2) * hI) | (norm_num; linear_combination (-1 / 2) * hI) | (norm_num; ring)
  · ext i j; fin_cases i <;> fin_cases j <;> simp [hGate, xGate, diag1, zDiag, Matrix.mul_apply, Fin.sum_univ_two] <;>
      first | done | linear_combination 2 * e | linear_combination (-2) * e
  · ext ⟨o1, o2⟩ ⟨i1, i2⟩
    fin_cases o1 <;> fin_cases o2 <;> fin_cases i1 <;> fin_cases i2 <;>
      simp [hGate, diag2, czDiag, ctrl1, cnotTensor, Matrix.mul_apply, Fintype.sum_prod_type, Fin.sum_univ_two] <;>
      first | done | linear_combination 2 * e | linear_combination (-2) * e | ring
  · ext ⟨o1, o2⟩ ⟨i1, i2⟩
    fin_cases o1 <;> fin_cases o2 <;> fin_cases i1 <;> fin_cases i2 <;>
      simp [ctrl1, cnotTensor, swapGate, Matrix.mul_apply, Fintype.sum_prod_type, Fin.sum_univ_two]

/-- C46 fails for Y: the array is minus the textbook Y.  So `X Y = -i Z` instead of `i Z`, and the square of
`YHalfGate`, "√Y", is `-YGate`. -/
theorem c46_y_violated : yGate = -!![0, -I; I, 0] ∧ xGate * yGate = (-I) • diag1 zDiag ∧
    xGate * yGate ≠ I • diag1 zDiag ∧ yHalf * yHalf = -yGate ∧ yHalf * yHalf ≠ yGate := by
  have h1 : yGate = -!![0, -I; I, 0] := by
    ext i j; fin_cases i <;> fin_cases j <;> simp [yGate]
  have h2 : xGate * yGate = (-I) • diag1 zDiag := by
    ext i j; fin_cases i <;> fin_cases j <;> simp [xGate, yGate, diag1, zDiag, Matrix.mul_apply, Fin.sum_univ_two]
  have h3 : yHalf * yHalf = -yGate := by rw [c46_identities_partial.2.2.2.2.1, h1, neg_neg]
  have hI : I ≠ -I := fun h => by
    have := congrArg Complex.im h
    norm_num at this
  refine ⟨h1, h2, fun h => ?_, h3, fun h => ?_⟩
  · rw [h2] at h
    have := congrFun (congrFun h 0) 0
    simp [diag1, zDiag] at this
    exact hI this.symm
  · rw [h3] at h
    have := congrFun (congrFun h 0) 1
    simp [yGate] at this
    exact hI this.symm

end Gate

end Verif
