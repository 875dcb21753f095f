import Verif.Model.Idle
import Verif.Props.Gates
import Mathlib.Analysis.SpecialFunctions.Trigonometric.Deriv
import Mathlib.Analysis.SpecialFunctions.ExpDeriv
import Mathlib.Analysis.SpecialFunctions.Integrals.Basic
import Mathlib.MeasureTheory.Integral.IntervalIntegral.FundThmCalculus
/-!
# Noise of the surface code demo (C66)
-/

namespace Verif

set_option linter.unusedSimpArgs false
set_option linter.unnecessarySeqFocus false
set_option linter.unusedTactic false
set_option linter.unreachableTactic false

namespace Qec

open Complex Matrix Gate

/-- A channel is completely positive: it has Kraus operators. -/
def CP (D : Chan) : Prop := ∃ l : List (ℝ × M2), (∀ p ∈ l, 0 ≤ p.1) ∧ D = mixture l

/-- First `D`, then `E`. -/
def andThen (D E : Chan) : Chan := fun o i o' i' => ∑ m, ∑ m', E o m o' m' * D m i m' i'

/-- The channel that does nothing. -/
def idChan : Chan := fun o i o' i' => if o = i ∧ o' = i' then 1 else 0

/-- The entries of the idle channel: populations `1 → 1`, `1 → 0` and the coherence. -/
theorem idle_eq (d : ℝ) (p : Params) (ts : Option Ts) : idle d p ts = fun o i o' i' =>
    (![![![![(1 : ℂ), 0], ![0, (Real.sqrt (keep d p * coh d p ts) : ℂ)]], ![![0, 1 - (keep d p : ℂ)], ![0, 0]]],
      ![![![0, 0], ![0, 0]], ![![(Real.sqrt (keep d p * coh d p ts) : ℂ), 0], ![0, (keep d p : ℂ)]]]] :
    Fin 2 → Fin 2 → Fin 2 → Fin 2 → ℂ) o i o' i' := by
  funext o i o' i'
  fin_cases o <;> fin_cases i <;> fin_cases o' <;> fin_cases i' <;>
    simp [idle, reshape4, idleData, finProdFinEquiv, Fin.rev, Fin.ext_iff]

theorem keep_pos (d : ℝ) (p : Params) : 0 < keep d p := Real.exp_pos _

theorem lamda_pos (p : Params) (ts : Ts) : 0 < lamda p ts := Real.exp_pos _

theorem coh_pos (d : ℝ) (p : Params) : ∀ ts, 0 < coh d p ts
  | none => Real.exp_pos _
  | some ts => mul_pos (Real.exp_pos _) (lamda_pos p ts)

/-- C66: idling preserves the trace, for all durations and parameters. -/
theorem c66_trace (d : ℝ) (p : Params) (ts : Option Ts) : TracePreserving (idle d p ts) := by
  rw [idle_eq]
  intro i i'
  fin_cases i <;> fin_cases i' <;> simp [Fin.sum_univ_two]

theorem sqrt_mul_self_c {x : ℝ} (h : 0 ≤ x) : (Real.sqrt x : ℂ) * (Real.sqrt x : ℂ) = x := by
  rw [← Complex.ofReal_mul, Real.mul_self_sqrt h]

/-- C66: idling is decay with probability `1 - p_1_`, loss of the phase, or a damping of the coherence. -/
theorem c66_kraus (d : ℝ) (p : Params) (ts : Option Ts) : idle d p ts =
    mixture [(1, !![1, 0; 0, (Real.sqrt (keep d p * coh d p ts) : ℂ)]), (1 - keep d p, !![0, 1; 0, 0]),
      (keep d p * (1 - coh d p ts), !![0, 0; 0, 1])] := by
  have e := sqrt_mul_self_c (mul_pos (keep_pos d p) (coh_pos d p ts)).le
  rw [idle_eq]
  funext o i o' i'
  fin_cases o <;> fin_cases i <;> fin_cases o' <;> fin_cases i' <;> simp [mixture] <;>
    first | done | (push_cast at e; linear_combination -e)

/-- The quadratic form of a completely positive channel is nonnegative. -/
theorem CP.form {D : Chan} (h : CP D) (v : Fin 2 → Fin 2 → ℂ) :
    0 ≤ (∑ o, ∑ i, ∑ o', ∑ i', star (v o i) * D o i o' i' * v o' i').re := by
  obtain ⟨l, hl, rfl⟩ := h
  have e : (∑ o, ∑ i, ∑ o', ∑ i', star (v o i) * mixture l o i o' i' * v o' i') =
      (l.map fun p => (p.1 : ℂ) * ((∑ o, ∑ i, star (v o i) * p.2 o i) * star (∑ o, ∑ i, star (v o i) * p.2 o i))).sum := by
    clear hl
    induction l with
    | nil => simp [mixture]
    | cons a t ih =>
      have : ∀ o i o' i', mixture (a :: t) o i o' i' = (a.1 : ℂ) * (a.2 o i * star (a.2 o' i')) + mixture t o i o' i' := by
        intro o i o' i'; simp [mixture]
      rw [List.map_cons, List.sum_cons, ← ih]
      simp only [this, Fin.sum_univ_two, star_add, star_mul', star_star]
      ring
  rw [e]
  clear e
  induction l with
  | nil => simp
  | cons a t ih =>
    rw [List.map_cons, List.sum_cons, Complex.add_re]
    have h1 := ih fun p hp => hl p (List.mem_cons_of_mem _ hp)
    have h2 := hl a List.mem_cons_self
    have h3 : ((a.1 : ℂ) * ((∑ o, ∑ i, star (v o i) * a.2 o i) * star (∑ o, ∑ i, star (v o i) * a.2 o i))).re =
        a.1 * Complex.normSq (∑ o, ∑ i, star (v o i) * a.2 o i) := by
      rw [Complex.star_def, Complex.mul_conj, ← Complex.ofReal_mul, Complex.ofReal_re]
    rw [h3]
    have := mul_nonneg h2 (Complex.normSq_nonneg (∑ o, ∑ i, star (v o i) * a.2 o i))
    linarith

/-- C66: for a nonnegative decay rate and duration, the idle channel is completely positive exactly if `p_phi_ ≤ 1`. -/
theorem c66_cp_iff {d : ℝ} {p : Params} (ts : Option Ts) (h : 0 ≤ d * p.t1inv) :
    CP (idle d p ts) ↔ coh d p ts ≤ 1 := by
  have hk : keep d p ≤ 1 := by
    unfold keep; rw [Real.exp_le_one_iff]; linarith
  have hp := keep_pos d p
  have hc := coh_pos d p ts
  constructor
  · intro hcp
    by_contra hn
    have hs := Real.mul_self_sqrt (mul_pos hp hc).le
    have := hcp.form ![![(Real.sqrt (keep d p * coh d p ts) : ℂ), 0], ![0, -1]]
    rw [idle_eq] at this
    simp [Fin.sum_univ_two] at this
    nlinarith [mul_pos hp (sub_pos.2 (not_le.1 hn))]
  · intro hle
    refine ⟨_, ?_, c66_kraus d p ts⟩
    intro q hq
    simp only [List.mem_cons, List.not_mem_nil, or_false] at hq
    rcases hq with rfl | rfl | rfl
    · simp
    · simp; linarith
    · exact mul_nonneg hp.le (by simpa using hle)

/-- C66: without photon noise, idling is a quantum channel. -/
theorem c66_cp {d : ℝ} {p : Params} (h : 0 ≤ d * p.t1inv) (h2 : 0 ≤ d * p.tphiinv) : CP (idle d p none) := by
  rw [c66_cp_iff none h]
  unfold coh; rw [Real.exp_le_one_iff]; linarith

theorem keep_add (a b : ℝ) (p : Params) : keep (a + b) p = keep a p * keep b p := by
  unfold keep; rw [← Real.exp_add]; congr 1; ring

theorem andThen_idle {a b c : ℝ} {p : Params} {s t u : Option Ts} (h1 : keep c p = keep a p * keep b p)
    (h2 : coh c p u = coh a p s * coh b p t) : andThen (idle a p s) (idle b p t) = idle c p u := by
  have hs : (Real.sqrt (keep c p * coh c p u) : ℂ) =
      (Real.sqrt (keep a p * coh a p s) : ℂ) * (Real.sqrt (keep b p * coh b p t) : ℂ) := by
    rw [← Complex.ofReal_mul, ← Real.sqrt_mul (mul_pos (keep_pos a p) (coh_pos a p s)).le, h1, h2]
    congr 2; ring
  rw [idle_eq a, idle_eq b, idle_eq c, hs, h1]
  funext o i o' i'
  fin_cases o <;> fin_cases i <;> fin_cases o' <;> fin_cases i' <;> simp [andThen, Fin.sum_univ_two] <;> ring_nf

/-- C66: idling for `a` and then for `b` is idling for `a + b`. -/
theorem c66_semigroup (a b : ℝ) (p : Params) : andThen (idle a p none) (idle b p none) = idle (a + b) p none := by
  refine andThen_idle (keep_add a b p) ?_
  unfold coh; rw [← Real.exp_add]; congr 1; ring_nf

/-- C66: the same with photon noise, for adjacent windows after the same measurement. -/
theorem c66_windows (a b s m e dt : ℝ) (p : Params) :
    andThen (idle a p (some ⟨s, m, dt⟩)) (idle b p (some ⟨m, e, dt⟩)) = idle (a + b) p (some ⟨s, e, dt⟩) := by
  refine andThen_idle (keep_add a b p) ?_
  unfold coh lamda; simp only [← Real.exp_add]; congr 1; ring

/-- C66: idling for no time does nothing. -/
theorem c66_zero (p : Params) : idle 0 p none = idChan := by
  rw [idle_eq]
  funext o i o' i'
  fin_cases o <;> fin_cases i <;> fin_cases o' <;> fin_cases i' <;> simp [keep, coh, idChan]

theorem intTerm_deriv (p : Params) (h : 4 * p.chi ^ 2 + p.kappa ^ 2 ≠ 0) (t : ℝ) :
    HasDerivAt (intTerm p) (Real.exp (-p.kappa * t) * Real.sin (2 * p.chi * t)) t := by
  have h1 : HasDerivAt (fun t : ℝ => -p.kappa * t) (-p.kappa) t := by
    simpa using (hasDerivAt_id t).const_mul (-p.kappa)
  have h2 : HasDerivAt (fun t : ℝ => 2 * p.chi * t) (2 * p.chi) t := by
    simpa using (hasDerivAt_id t).const_mul (2 * p.chi)
  have h3 := ((h1.exp.neg.div_const (4 * p.chi ^ 2 + p.kappa ^ 2)).mul
    ((h2.sin.const_mul p.kappa).add (h2.cos.const_mul (2 * p.chi))))
  refine h3.congr_deriv ?_
  simp only [Pi.neg_apply, Pi.add_apply]
  field_simp
  ring

/-- C66: `lamda` is the exponential of minus the dephasing rate
`2 χ α₀ exp(-κ (Dt + t)) sin(2 χ t)` of the leaking photons, integrated over the window. -/
theorem c66_lamda (p : Params) (ts : Ts) (h : 4 * p.chi ^ 2 + p.kappa ^ 2 ≠ 0) : lamda p ts =
    Real.exp (-∫ t in ts.start..ts.fin,
      2 * p.chi * p.alpha0 * Real.exp (-p.kappa * (ts.dt + t)) * Real.sin (2 * p.chi * t)) := by
  have e : ∀ t, HasDerivAt (fun t => 2 * p.chi * p.alpha0 * Real.exp (-p.kappa * ts.dt) * intTerm p t)
      (2 * p.chi * p.alpha0 * Real.exp (-p.kappa * (ts.dt + t)) * Real.sin (2 * p.chi * t)) t := by
    intro t
    refine ((intTerm_deriv p h t).const_mul _).congr_deriv ?_
    rw [mul_add, Real.exp_add]; ring
  rw [intervalIntegral.integral_eq_sub_of_hasDerivAt (fun t _ => e t)
    (Continuous.intervalIntegrable (by fun_prop) _ _)]
  unfold lamda; congr 1; ring

/-- Parameters without other noise, for which the photon term revives. -/
noncomputable def revive : Params := ⟨0, 0, 0, 0, 1, 0, 1 / 2⟩

/-- C66 does not hold in general with photon noise: a window in the second half of the oscillation multiplies
the coherence by more than one, the result is no quantum channel. -/
theorem c66_photons_violated : ¬ CP (idle Real.pi revive (some ⟨Real.pi, 2 * Real.pi, 0⟩)) := by
  rw [c66_cp_iff _ (by simp [revive])]
  rw [not_le]
  simp only [coh, lamda]
  rw [← Real.exp_add, Real.one_lt_exp_iff]
  simp [revive, intTerm]
  norm_num

/-- C66: the noise after a Hadamard gate applies X, Y and Z with the probabilities of the error model. -/
theorem c66_hNoise (p : Params) : hNoise p =
    mixture [(1 - p.pPlane / 2 - p.pAxis / 4, 1), (p.pAxis / 4, !![0, 1; 1, 0]),
      (p.pPlane / 2 - p.pAxis / 4, !![0, -I; I, 0]), (p.pAxis / 4, !![1, 0; 0, -1])] := by
  unfold hNoise; rw [c42_depol]
  congr 3; ring_nf

/-- C66: for sensible probabilities it is a quantum channel that preserves the trace. -/
theorem c66_hNoise_cp (p : Params) (h0 : 0 ≤ p.pAxis) (h1 : p.pAxis ≤ 2 * p.pPlane)
    (h2 : p.pPlane / 2 + p.pAxis / 4 ≤ 1) : CP (hNoise p) ∧ TracePreserving (hNoise p) := by
  refine ⟨⟨_, ?_, c66_hNoise p⟩, c42_depol_trace _ _ _⟩
  intro q hq
  simp only [List.mem_cons, List.not_mem_nil, or_false] at hq
  rcases hq with rfl | rfl | rfl | rfl <;> simp <;> linarith

/-- C66: `NDCompMeas` with `PH` replaced by a vector `w` of weights weighs the projections on the basis states. -/
theorem c66_nd (w : Fin 2 → ℝ) : ndMeas (fun b => (w b : ℂ)) =
    mixture [(w 0, !![1, 0; 0, 0]), (w 1, !![0, 0; 0, 1])] := by
  funext o i o' i'
  fin_cases o <;> fin_cases i <;> fin_cases o' <;> fin_cases i' <;> simp [ndMeas, mixture]

/-- C66: as built, with the vector of ones, it measures, forgets the outcome and preserves the trace. -/
theorem c66_nd_trace : TracePreserving (ndMeas fun _ => 1) := by
  intro i i'
  fin_cases i <;> fin_cases i' <;> simp [ndMeas, Fin.sum_univ_two]

/-- C66: `NoisyCZ` is unitary for all angles; with angle 0 (table) or π (one angle) it is CZ; one angle 0 is no gate. -/
theorem c66_cz (a : ℝ) : Uni (diag2 (noisyCz a)) ∧ Uni (diag2 (crossCz a)) ∧ noisyCz 0 = czDiag ∧
    crossCz Real.pi = czDiag ∧ diag2 (crossCz 0) = 1 := by
  have e1 : (starRingEnd ℂ) (exp (I * a)) * exp (I * a) = 1 := by
    rw [← Complex.exp_conj, ← Complex.exp_add]; simp
  have e2 : (starRingEnd ℂ) (exp (-(I * a))) * exp (-(I * a)) = 1 := by
    rw [← Complex.exp_conj, ← Complex.exp_add]; simp
  refine ⟨uni_of_left ?_, uni_of_left ?_, ?_, ?_, ?_⟩
  · ext ⟨o1, o2⟩ ⟨i1, i2⟩
    fin_cases o1 <;> fin_cases o2 <;> fin_cases i1 <;> fin_cases i2 <;>
      simp [diag2, noisyCz, Matrix.mul_apply, Fintype.sum_prod_type, Fin.sum_univ_two, Matrix.one_apply, e1, e2]
  · ext ⟨o1, o2⟩ ⟨i1, i2⟩
    fin_cases o1 <;> fin_cases o2 <;> fin_cases i1 <;> fin_cases i2 <;>
      simp [diag2, crossCz, Matrix.mul_apply, Fintype.sum_prod_type, Fin.sum_univ_two, Matrix.one_apply, e1, e2]
  · funext i j; fin_cases i <;> fin_cases j <;> simp [noisyCz, czDiag]
  · funext i j; fin_cases i <;> fin_cases j <;> simp [crossCz, czDiag, mul_comm I]
  · ext ⟨o1, o2⟩ ⟨i1, i2⟩
    fin_cases o1 <;> fin_cases o2 <;> fin_cases i1 <;> fin_cases i2 <;> simp [diag2, crossCz, Matrix.one_apply]

/-- C66: which phases the angle adds. With a table, CZ is followed by the rotation of the second qubit about Z, `e^(iaZ)`,
controlled by the first; with one angle, the phase is on `|11⟩` only. In both cases angles add up. -/
theorem c66_cz_phase (a b : ℝ) : (∀ i j : Fin 2, noisyCz a i j =
      czDiag i j * if i = 1 then exp (I * (a * (if j = 0 then 1 else -1 : ℝ) : ℝ)) else 1) ∧
    (∀ i j : Fin 2, crossCz a i j = if i = 1 ∧ j = 1 then exp (I * a) else 1) ∧
    (∀ i j : Fin 2, noisyCz a i j * noisyCz b i j = czDiag i j * noisyCz (a + b) i j) ∧
    ∀ i j : Fin 2, crossCz a i j * crossCz b i j = crossCz (a + b) i j := by
  refine ⟨fun i j => ?_, fun i j => ?_, fun i j => ?_, fun i j => ?_⟩ <;> fin_cases i <;> fin_cases j <;>
    simp [noisyCz, crossCz, czDiag, ← Complex.exp_add, mul_add]

/-- demo/QEC/noise_model.py:5-18: the default parameters. -/
noncomputable def defaultParams : Params := ⟨1 / 30000, 1 / 60000, 1e-4, 5e-4, 4, 1 / 250, 1.3e-3⟩

/-- The hypotheses hold for the default parameters. -/
example : CP (idle 300 defaultParams none) ∧ CP (hNoise defaultParams) :=
  ⟨c66_cp (by norm_num [defaultParams]) (by norm_num [defaultParams]),
    (c66_hNoise_cp _ (by norm_num [defaultParams]) (by norm_num [defaultParams]) (by norm_num [defaultParams])).1⟩

/-- The integral form applies to the default parameters. -/
example (ts : Ts) := c66_lamda defaultParams ts (by norm_num [defaultParams])

end Qec

end Verif
