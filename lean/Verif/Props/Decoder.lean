import Verif.Spec.Ptm
import Verif.Model.Decoder
import Mathlib.Tactic.FinCases
import Mathlib.Tactic.Ring
import Mathlib.Tactic.Linarith
import Mathlib.Tactic.NormNum
import Mathlib.Algebra.BigOperators.Fin
/-!
# C74: the decoder of the surface code demo
-/

namespace Verif

namespace Qec

open Complex Matrix Ptm

variable {n : Nat}

/-- C74: the array `Pauli` holds the transposed Pauli matrices I, X, Y, Z. -/
theorem c74_table (i : Fin 4) (a A : Fin 2) : pauliTab a A (rowOf i) (colOf i) = (pauli i)ᵀ a A := by
  fin_cases i <;> fin_cases a <;> fin_cases A <;> simp [pauliTab, rowOf, colOf, pauli]

theorem pauli_herm (i : Fin 4) (a A : Fin 2) : (starRingEnd ℂ) (pauli i a A) = pauli i A a := by
  fin_cases i <;> fin_cases a <;> fin_cases A <;> simp [pauli]

theorem pauli_transpose (i : Fin 4) : (pauli i)ᵀ = (if i = 2 then (-1 : ℂ) else 1) • pauli i := by
  ext a A
  fin_cases i <;> fin_cases a <;> fin_cases A <;> simp [pauli]

theorem channel_smul (res : Fin 2 → Fin 2 → Fin 2 → Fin 2 → ℂ) (c : ℂ) (ρ : Matrix (Fin 2) (Fin 2) ℂ) :
    channel res (c • ρ) = c • channel res ρ := by
  ext b B
  simp only [channel, of_apply, Matrix.smul_apply, smul_eq_mul, Finset.mul_sum]
  exact Finset.sum_congr rfl fun a _ => Finset.sum_congr rfl fun A _ => by ring

/-- The sign of an entry of the Pauli transfer matrix if Y is replaced by -Y. -/
def flipY (i j : Fin 4) : ℝ := (if i = 2 then -1 else 1) * (if j = 2 then -1 else 1)

/-- **C74**: before the readout error, the array holds (the real parts of) the Pauli transfer matrices of the maps `channel (res · · · · s)`, one for
each list of outcomes, with the sign of Y reversed. -/
theorem c74_ptm (res : Fin 2 → Fin 2 → Fin 2 → Fin 2 → Outcomes n → ℂ) (i j : Fin 4) (s : Outcomes n) :
    ptm res i j s = flipY i j * (entry (channel fun a b A B => res a b A B s) i j).re := by
  have h : ptmOut (ptmIn res) (rowOf i) (colOf i) (rowOf j) (colOf j) s =
      ((flipY i j : ℝ) : ℂ) * entry (channel fun a b A B => res a b A B s) i j := by
    have e1 : ptmOut (ptmIn res) (rowOf i) (colOf i) (rowOf j) (colOf j) s =
        trace ((pauli i)ᵀ * channel (fun a b A B => res a b A B s) (pauli j)ᵀ) := by
      simp only [ptmOut, ptmIn, c74_table, channel, trace, diag, mul_apply, of_apply, transpose_apply, pauli_herm]
      rw [Finset.sum_comm]
      refine Finset.sum_congr rfl fun B _ => Finset.sum_congr rfl fun b _ => ?_
      rw [mul_comm]
    rw [e1, pauli_transpose, pauli_transpose, channel_smul, smul_mul_assoc, Matrix.mul_smul, trace_smul, trace_smul, smul_eq_mul, smul_eq_mul, ← mul_assoc]
    simp only [flipY, entry]
    push_cast
    split_ifs <;> simp
  unfold ptm
  rw [h, Complex.re_ofReal_mul]

/-- **C74**: if the maps take hermitian matrices to hermitian matrices, taking the real part loses nothing. -/
theorem c74_real {E : Matrix (Fin 2) (Fin 2) ℂ → Matrix (Fin 2) (Fin 2) ℂ} (hE : ∀ ρ, ρᴴ = ρ → (E ρ)ᴴ = E ρ) (i j : Fin 4) : (entry E i j).im = 0 := by
  have hp : ∀ k, (pauli k)ᴴ = pauli k := fun k => by
    ext a A
    rw [conjTranspose_apply]
    exact pauli_herm k A a
  have h : star (entry E i j) = entry E i j := by
    unfold entry
    rw [← trace_conjTranspose, conjTranspose_mul, hp, hE _ (hp j), trace_mul_comm]
  exact Complex.conj_eq_iff_im.1 h

/-- The weight with which the outcomes `t` are reported as `s`: the first `m` outcomes are flipped independently. -/
def reported (bf : Fin 2 → Fin 2 → ℝ) (m : Nat) (t s : Outcomes n) : ℝ :=
  ∏ k : Fin n, if k.val < m then bf (t k) (s k) else if t k = s k then 1 else 0

/-- **C74**: the loop over the readout errors adds up what was measured as `t` and reported as `s`. -/
theorem c74_readout (bf : Fin 2 → Fin 2 → ℝ) (R : Outcomes n → ℝ) : ∀ (m : Nat) (s : Outcomes n),
    merge bf m R s = ∑ t, reported bf m t s * R t
  | 0, s => by
    rw [merge, Finset.sum_eq_single s]
    · simp [reported]
    · intro t _ ht
      obtain ⟨k, hk⟩ := Function.ne_iff.1 ht
      have : reported bf 0 t s = 0 := Finset.prod_eq_zero (Finset.mem_univ k) (by simp [hk])
      rw [this, zero_mul]
    · intro h; exact absurd (Finset.mem_univ _) h
  | m + 1, s => by
    rw [merge, mergeOne]
    split
    · next hm =>
      simp only [c74_readout bf R m, Finset.sum_mul]
      rw [Finset.sum_comm]
      refine Finset.sum_congr rfl fun t _ => ?_
      have hr : ∀ v, reported bf m t (Function.update s ⟨m, hm⟩ v) =
          (if t ⟨m, hm⟩ = v then 1 else 0) * ∏ k ∈ Finset.univ.erase (⟨m, hm⟩ : Fin n), if k.val < m then bf (t k) (s k) else if t k = s k then 1 else 0 := fun v => by
        unfold reported
        rw [← Finset.mul_prod_erase _ _ (Finset.mem_univ (⟨m, hm⟩ : Fin n))]
        congr 1
        · simp
        · exact Finset.prod_congr rfl fun k hk => by rw [Function.update_of_ne (Finset.ne_of_mem_erase hk)]
      have hs : reported bf (m + 1) t s = bf (t ⟨m, hm⟩) (s ⟨m, hm⟩) *
          ∏ k ∈ Finset.univ.erase (⟨m, hm⟩ : Fin n), if k.val < m then bf (t k) (s k) else if t k = s k then 1 else 0 := by
        unfold reported
        rw [← Finset.mul_prod_erase _ _ (Finset.mem_univ (⟨m, hm⟩ : Fin n))]
        congr 1
        · simp
        · refine Finset.prod_congr rfl fun k hk => ?_
          have : k.val ≠ m := fun h => Finset.ne_of_mem_erase hk (Fin.ext h)
          have e : k.val < m + 1 ↔ k.val < m := by omega
          simp only [e]
      rw [hs, Finset.sum_congr rfl fun v _ => by rw [hr v]]
      rw [Finset.sum_eq_single (t ⟨m, hm⟩)]
      · simp only [if_true, one_mul]; ring
      · intro v _ hv; simp [Ne.symm hv]
      · intro h; exact absurd (Finset.mem_univ _) h
    · next hm =>
      rw [c74_readout bf R m]
      refine Finset.sum_congr rfl fun t _ => ?_
      congr 1
      refine Finset.prod_congr rfl fun k _ => ?_
      have := k.isLt
      rw [if_pos (by omega), if_pos (by omega)]

/-- **C74**: the readout errors of `butterfly` are a probability distribution of reports for each list of outcomes. -/
theorem c74_stochastic {e : ℝ} (m : Nat) (t : Outcomes n) : ∑ s, reported (butterfly e) m t s = 1 := by
  unfold reported
  have h := Finset.prod_univ_sum (fun _ : Fin n => (Finset.univ : Finset (Fin 2)))
    (fun (k : Fin n) (v : Fin 2) => if k.val < m then butterfly e (t k) v else if t k = v then (1 : ℝ) else 0)
  rw [Fintype.piFinset_univ] at h
  rw [← h]
  refine Finset.prod_eq_one fun k _ => ?_
  rw [Fin.sum_univ_two]
  have : t k = 0 ∨ t k = 1 := by
    have := (t k).isLt
    omega
  split_ifs <;> rcases this with h | h <;> simp_all [butterfly]

/-- **C74**: `butterfly` flips each of the first `m` outcomes with probability `e`, independently, and no other outcome. -/
theorem c74_flip (e : ℝ) (m : Nat) (t s : Outcomes n) : reported (butterfly e) m t s =
    if ∀ k : Fin n, m ≤ k.val → t k = s k then
      e ^ (Finset.univ.filter fun k : Fin n => k.val < m ∧ t k ≠ s k).card *
        (1 - e) ^ (Finset.univ.filter fun k : Fin n => k.val < m ∧ t k = s k).card
    else 0 := by
  have hb : ∀ v w : Fin 2, butterfly e v w = if v = w then 1 - e else e := by
    intro v w
    have hv : v = 0 ∨ v = 1 := by omega
    have hw : w = 0 ∨ w = 1 := by omega
    rcases hv with rfl | rfl <;> rcases hw with rfl | rfl <;> simp [butterfly]
  unfold reported
  split_ifs with h
  · rw [← Finset.prod_const, ← Finset.prod_const, Finset.prod_filter, Finset.prod_filter, ← Finset.prod_mul_distrib]
    refine Finset.prod_congr rfl fun k _ => ?_
    rw [hb]
    by_cases hk : k.val < m
    · by_cases hts : t k = s k <;> simp [hk, hts]
    · simp [hk, h k (by omega)]
  · push Not at h
    obtain ⟨k, hk, hts⟩ := h
    exact Finset.prod_eq_zero (Finset.mem_univ k) (by rw [if_neg (by omega), if_neg hts])

/-- **C74**: the signs in `sk` tell which Pauli matrices commute. -/
theorem c74_sk (i j : Fin 4) : sk i j = Ptm.sign i j ∧ pauli i * pauli j = ((sk i j : ℝ) : ℂ) • (pauli j * pauli i) := by
  refine ⟨?_, ?_⟩
  · fin_cases i <;> fin_cases j <;> simp [sk, Ptm.sign]
  · ext a b
    fin_cases i <;> fin_cases j <;> fin_cases a <;> fin_cases b <;> simp [sk, pauli, mul_apply, Fin.sum_univ_two]

theorem pauli_sq (i : Fin 4) : pauli i * pauli i = 1 := by
  ext a b
  fin_cases i <;> fin_cases a <;> fin_cases b <;> simp [pauli, mul_apply, Fin.sum_univ_two]

/-- **C74**: multiplying with the signs is the correction by a Pauli matrix behind the map. -/
theorem c74_correction (E : Matrix (Fin 2) (Fin 2) ℂ → Matrix (Fin 2) (Fin 2) ℂ) (c i j : Fin 4) :
    entry (fun ρ => pauli c * E ρ * pauli c) i j = sk c i * entry E i j := by
  unfold entry
  have h : pauli i * (pauli c * E (pauli j) * pauli c) = pauli i * pauli c * (E (pauli j) * pauli c) := by simp only [Matrix.mul_assoc]
  rw [h, trace_mul_comm, Matrix.mul_assoc, ← Matrix.mul_assoc (pauli c), (c74_sk c i).2, Matrix.smul_mul, Matrix.mul_smul, trace_smul, smul_eq_mul,
    Matrix.mul_assoc, pauli_sq, Matrix.mul_one, trace_mul_comm]

theorem argmax_max (f : Fin 4 → ℝ) (i : Fin 4) : f i ≤ f (argmax f) := by
  unfold argmax
  simp only [List.foldl]
  fin_cases i <;> simp only [] <;> split_ifs <;> simp_all <;> linarith

/-- Of several maxima, the first one is taken. -/
theorem c74_first (f : Fin 4 → ℝ) (i : Fin 4) (h : i < argmax f) : f i < f (argmax f) := by
  revert h
  unfold argmax
  simp only [List.foldl]
  fin_cases i <;> simp only [] <;> split_ifs <;> simp_all <;> linarith

theorem sk_symm (i j : Fin 4) : sk i j = sk j i := by
  fin_cases i <;> fin_cases j <;> rfl

/-- The map of matrices for the reported outcomes `s`: what happens in all cases reported as `s`. -/
noncomputable def reportedMap (bf : Fin 2 → Fin 2 → ℝ) (m : Nat) (res : Fin 2 → Fin 2 → Fin 2 → Fin 2 → Outcomes n → ℂ) (s : Outcomes n)
    (ρ : Matrix (Fin 2) (Fin 2) ℂ) : Matrix (Fin 2) (Fin 2) ℂ :=
  ∑ t, ((reported bf m t s : ℝ) : ℂ) • channel (fun a b A B => res a b A B t) ρ

/-- How well the identity is kept (4 times the entanglement fidelity), after the correction `c` for the map `E`. -/
noncomputable def fidelity (E : Matrix (Fin 2) (Fin 2) ℂ → Matrix (Fin 2) (Fin 2) ℂ) (c : Fin 4) : ℝ :=
  ∑ i, (entry (fun ρ => pauli c * E ρ * pauli c) i i).re

theorem merge_ptm (bf : Fin 2 → Fin 2 → ℝ) (m : Nat) (res : Fin 2 → Fin 2 → Fin 2 → Fin 2 → Outcomes n → ℂ) (i j : Fin 4) (s : Outcomes n) :
    merge bf m (ptm res i j) s = flipY i j * (entry (reportedMap bf m res s) i j).re := by
  rw [c74_readout]
  unfold entry reportedMap
  rw [Matrix.mul_sum, trace_sum, Complex.re_sum, Finset.mul_sum]
  refine Finset.sum_congr rfl fun t _ => ?_
  rw [Matrix.mul_smul, trace_smul, smul_eq_mul, Complex.re_ofReal_mul, c74_ptm, entry]
  ring

theorem score_merge (bf : Fin 2 → Fin 2 → ℝ) (m : Nat) (res : Fin 2 → Fin 2 → Fin 2 → Fin 2 → Outcomes n → ℂ) (c : Fin 4) (s : Outcomes n) :
    score (fun i j => merge bf m (ptm res i j)) c s = fidelity (reportedMap bf m res s) c := by
  unfold score fidelity
  refine Finset.sum_congr rfl fun i _ => ?_
  beta_reduce
  rw [merge_ptm, c74_correction, Complex.re_ofReal_mul, sk_symm c i]
  have : flipY i i = 1 := by unfold flipY; split_ifs <;> norm_num
  rw [this]
  ring

/-- **C74**: what `computeErrorRate` returns is 512 times the Pauli transfer matrix (with the sign of Y reversed) of this: the outcomes are reported
with readout errors; for each report one of the four Pauli matrices is applied; the choice keeps the identity at least as well as any other. -/
theorem c74_decode (bf : Fin 2 → Fin 2 → ℝ) (m : Nat) (res : Fin 2 → Fin 2 → Fin 2 → Fin 2 → Outcomes n → ℂ) :
    ∃ c : Outcomes n → Fin 4, (∀ s d, fidelity (reportedMap bf m res s) d ≤ fidelity (reportedMap bf m res s) (c s)) ∧
      ∀ i j, decode bf m res i j =
        512 * (flipY i j * ∑ s, (entry (fun ρ => pauli (c s) * reportedMap bf m res s ρ * pauli (c s)) i j).re) := by
  refine ⟨choice fun i j => merge bf m (ptm res i j), fun s d => ?_, fun i j => ?_⟩
  · rw [← score_merge, ← score_merge]
    exact argmax_max (fun c => score (fun i j => merge bf m (ptm res i j)) c s) d
  · unfold decode corrected
    rw [mul_comm]
    rw [Finset.mul_sum (a := flipY i j)]
    refine congrArg (512 * ·) (Finset.sum_congr rfl fun s _ => ?_)
    beta_reduce
    rw [merge_ptm, c74_correction, Complex.re_ofReal_mul]
    ring

/-- **C74**: no function of the reported outcomes to corrections keeps the identity better than the decoder. -/
theorem c74_best (bf : Fin 2 → Fin 2 → ℝ) (m : Nat) (res : Fin 2 → Fin 2 → Fin 2 → Fin 2 → Outcomes n → ℂ) (d : Outcomes n → Fin 4) :
    512 * ∑ s, fidelity (reportedMap bf m res s) (d s) ≤ ∑ i, decode bf m res i i := by
  obtain ⟨c, h1, h2⟩ := c74_decode bf m res
  have h : ∑ i, decode bf m res i i = 512 * ∑ s, fidelity (reportedMap bf m res s) (c s) := by
    simp only [h2, fidelity]
    rw [← Finset.mul_sum, Finset.sum_comm]
    congr 1
    refine Finset.sum_congr rfl fun i _ => ?_
    have : flipY i i = 1 := by unfold flipY; split_ifs <;> norm_num
    rw [this, one_mul]
  rw [h]
  exact mul_le_mul_of_nonneg_left (Finset.sum_le_sum fun s _ => h1 s (d s)) (by norm_num)

/-- The map that applies the Pauli matrices with given weights. -/
noncomputable def pauliMap (p : Fin 4 → ℝ) (ρ : Matrix (Fin 2) (Fin 2) ℂ) : Matrix (Fin 2) (Fin 2) ℂ :=
  ∑ a, ((p a : ℝ) : ℂ) • (pauli a * ρ * pauli a)

/-- The Pauli transfer matrix of random Pauli matrices is diagonal. -/
theorem c74_pauliMap (p : Fin 4 → ℝ) (i j : Fin 4) : entry (pauliMap p) i j = if i = j then ((2 * ∑ a, p a * sk a i : ℝ) : ℂ) else 0 := by
  have h1 : entry id i j = if i = j then 2 else 0 := by
    fin_cases i <;> fin_cases j <;> simp [entry, pauli, trace, Fin.sum_univ_two] <;> norm_num
  unfold entry pauliMap
  rw [Matrix.mul_sum, trace_sum]
  have : ∀ a, trace (pauli i * (((p a : ℝ) : ℂ) • (pauli a * pauli j * pauli a))) = ((p a * sk a i : ℝ) : ℂ) * if i = j then 2 else 0 := fun a => by
    rw [Matrix.mul_smul, trace_smul, smul_eq_mul, ← h1]
    have := c74_correction id a i j
    unfold entry at this
    simp only [id] at this
    rw [this]
    unfold entry
    push_cast
    simp only [id]
    ring
  simp only [this]
  rw [← Finset.sum_mul]
  split
  · push_cast; ring
  · simp

/-- **C74**: if the errors given a report are Pauli matrices with weights `p`, the quantity maximised is 8 times the weight of the correction: the
decoder applies a most likely error. -/
theorem c74_likely (p : Fin 4 → ℝ) (c : Fin 4) : fidelity (pauliMap p) c = 8 * p c := by
  unfold fidelity
  simp only [c74_correction, Complex.re_ofReal_mul, c74_pauliMap, if_true, Complex.ofReal_re]
  fin_cases c <;> simp [Fin.sum_univ_four, sk] <;> ring

theorem sk_sq (i j : Fin 4) : sk i j * sk i j = 1 := by
  fin_cases i <;> fin_cases j <;> simp [sk]

/-- **C74**: if every list of outcomes belongs to one Pauli error and there are no readout errors, all errors are corrected. -/
theorem c74_perfect (bf : Fin 2 → Fin 2 → ℝ) {res : Fin 2 → Fin 2 → Fin 2 → Fin 2 → Outcomes n → ℂ} {w : Outcomes n → ℝ} {e : Outcomes n → Fin 4}
    (hw : ∀ s, 0 ≤ w s) (h : ∀ s ρ, channel (fun a b A B => res a b A B s) ρ = ((w s : ℝ) : ℂ) • (pauli (e s) * ρ * pauli (e s))) (i j : Fin 4) :
    decode bf 0 res i j = if i = j then 1024 * ∑ s, w s else 0 := by
  have hE : ∀ s, reportedMap bf 0 res s = pauliMap fun a => if a = e s then w s else 0 := fun s => by
    funext ρ
    unfold reportedMap pauliMap
    rw [Finset.sum_eq_single s, Finset.sum_eq_single (e s)]
    · simp [reported, h]
    · intro b _ hb; simp [hb]
    · intro h; exact absurd (Finset.mem_univ _) h
    · intro t _ ht
      obtain ⟨k, hk⟩ := Function.ne_iff.1 ht
      have : reported bf 0 t s = 0 := Finset.prod_eq_zero (Finset.mem_univ k) (by simp [hk])
      simp [this]
    · intro h; exact absurd (Finset.mem_univ _) h
  obtain ⟨c, h1, h2⟩ := c74_decode bf 0 res
  rw [h2]
  have hc : ∀ s, c s = e s ∨ w s = 0 := fun s => by
    have := h1 s (e s)
    rw [hE, c74_likely, c74_likely] at this
    by_cases hce : c s = e s
    · exact Or.inl hce
    · rw [if_pos rfl, if_neg hce] at this
      exact Or.inr (le_antisymm (by linarith) (hw s))
  have ht : ∀ s, (entry (fun ρ => pauli (c s) * reportedMap bf 0 res s ρ * pauli (c s)) i j).re = if i = j then 2 * w s else 0 := fun s => by
    rw [c74_correction, Complex.re_ofReal_mul, hE, c74_pauliMap]
    split
    · rw [Complex.ofReal_re]
      simp only [ite_mul, zero_mul, Finset.sum_ite_eq', Finset.mem_univ, if_true]
      rcases hc s with hs | hs
      · rw [hs]
        linear_combination 2 * w s * sk_sq (e s) i
      · rw [hs]; ring
    · simp
  simp only [ht]
  split
  · next hij =>
    subst hij
    have : flipY i i = 1 := by unfold flipY; split_ifs <;> norm_num
    rw [this, ← Finset.mul_sum]
    ring
  · simp

/-- One outcome that tells whether X or Z happened, with weights 1/4 and 3/4. -/
noncomputable example : ∃ res : Fin 2 → Fin 2 → Fin 2 → Fin 2 → Outcomes 1 → ℂ, ∀ i j, decode (butterfly 0.01) 0 res i j = if i = j then 1024 else 0 := by
  refine ⟨fun a b A B s => if s 0 = 0 then ((1 / 4 : ℝ) : ℂ) * (pauli 1 b a * pauli 1 A B) else ((3 / 4 : ℝ) : ℂ) * (pauli 3 b a * pauli 3 A B), fun i j => ?_⟩
  rw [c74_perfect (w := fun s => if s 0 = 0 then 1 / 4 else 3 / 4) (e := fun s => if s 0 = 0 then 1 else 3)]
  · have : ∑ s : Outcomes 1, (if s 0 = 0 then (1 / 4 : ℝ) else 3 / 4) = 1 := by
      rw [← (Equiv.funUnique (Fin 1) (Fin 2)).symm.sum_comp, Fin.sum_univ_two]
      norm_num
    rw [this, mul_one]
  · intro s; split <;> norm_num
  · intro s ρ
    ext b B
    by_cases hs : s 0 = 0 <;> fin_cases b <;> fin_cases B <;> simp [channel, pauli, hs, mul_apply, vecMul, dotProduct, Fin.sum_univ_two]

/-- Random Pauli matrices keep hermitian matrices hermitian. -/
example (i j : Fin 4) := c74_real (E := pauliMap ![0.9, 0.05, 0.03, 0.02]) (fun ρ h => by
  have hp : ∀ k, (pauli k)ᴴ = pauli k := fun k => by
    ext a A
    rw [conjTranspose_apply]
    exact pauli_herm k A a
  unfold pauliMap
  rw [conjTranspose_sum]
  refine Finset.sum_congr rfl fun a _ => ?_
  simp [conjTranspose_smul, conjTranspose_mul, hp, h, Matrix.mul_assoc]) i j

end Qec

end Verif
