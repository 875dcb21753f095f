import Mathlib.Analysis.Complex.Basic
import Mathlib.Data.Fin.VecNotation
/-!
# Model of the decoder of the surface code demo (demo/QEC/decoder.py:17-44)

The result of the contraction has 28 indices: the letters `abAB` and 24 outcomes.  Arrays are functions of their indices, `n` is the
number of outcomes and `m` the number of those with readout error (24 and 16 in the code).  Simplifications: real numbers instead
of floats; the index made of the outcomes by `reshape` (:35) is the list of the outcomes.
-/

namespace Verif

namespace Qec

open Complex

/-- The outcomes of the measurements (decoder.py:17: the letters from `C` on). -/
abbrev Outcomes (n : Nat) := Fin n → Fin 2

variable {n : Nat}

/-- decoder.py:20-21: `Pauli`. -/
noncomputable def pauliTab : Fin 2 → Fin 2 → Fin 2 → Fin 2 → ℂ :=
  ![![![![1, 0], ![0, 1]], ![![0, 1], ![I, 0]]], ![![![0, 1], ![-I, 0]], ![![1, 0], ![0, -1]]]]

/-- decoder.py:22: `einsum('abAB…,aAcd->cbdB…')`. -/
noncomputable def ptmIn (res : Fin 2 → Fin 2 → Fin 2 → Fin 2 → Outcomes n → ℂ) : Fin 2 → Fin 2 → Fin 2 → Fin 2 → Outcomes n → ℂ :=
  fun c b d B s => ∑ a, ∑ A, res a b A B s * pauliTab a A c d

/-- decoder.py:23-24: `einsum('abAB…,bBcd->cdaA…')` with the conjugate. -/
noncomputable def ptmOut (res : Fin 2 → Fin 2 → Fin 2 → Fin 2 → Outcomes n → ℂ) : Fin 2 → Fin 2 → Fin 2 → Fin 2 → Outcomes n → ℂ :=
  fun c d a A s => ∑ b, ∑ B, res a b A B s * (starRingEnd ℂ) (pauliTab b B c d)

/-- decoder.py:35: the two indices that `reshape` makes one. -/
def rowOf : Fin 4 → Fin 2 := ![0, 0, 1, 1]

/-- decoder.py:35: the two indices that `reshape` makes one. -/
def colOf : Fin 4 → Fin 2 := ![0, 1, 0, 1]

/-- decoder.py:22-25 and the first two indices of :35. The readout error (:28-33) acts on the other indices, so that the order of the
two does not matter. -/
noncomputable def ptm (res : Fin 2 → Fin 2 → Fin 2 → Fin 2 → Outcomes n → ℂ) (i j : Fin 4) (s : Outcomes n) : ℝ :=
  (ptmOut (ptmIn res) (rowOf i) (colOf i) (rowOf j) (colOf j) s).re

/-- decoder.py:10: `butterfly`. -/
def butterfly (e : ℝ) : Fin 2 → Fin 2 → ℝ := ![![1 - e, e], ![e, 1 - e]]

/-- decoder.py:29-33: one round of the loop, for the outcome `k`; no letter for it (`IndexError` or `ValueError` in the code) is left out. -/
def mergeOne (bf : Fin 2 → Fin 2 → ℝ) (k : Nat) (res : Outcomes n → ℝ) : Outcomes n → ℝ :=
  if h : k < n then fun s => ∑ v, res (Function.update s ⟨k, h⟩ v) * bf v (s ⟨k, h⟩) else res

/-- decoder.py:28-33: the loop over the first `m` outcomes. -/
def merge (bf : Fin 2 → Fin 2 → ℝ) : Nat → (Outcomes n → ℝ) → Outcomes n → ℝ
  | 0, res => res
  | m + 1, res => mergeOne bf m (merge bf m res)

/-- decoder.py:38-39: `sk`. -/
def sk : Fin 4 → Fin 4 → ℝ := ![![1, 1, 1, 1], ![1, 1, -1, -1], ![1, -1, 1, -1], ![1, -1, -1, 1]]

/-- decoder.py:40: `einsum('aab,ac->cb')`. -/
def score (R : Fin 4 → Fin 4 → Outcomes n → ℝ) (c : Fin 4) (s : Outcomes n) : ℝ := ∑ a, R a a s * sk a c

/-- decoder.py:40: `argmax`, the first of the largest. -/
noncomputable def argmax (f : Fin 4 → ℝ) : Fin 4 := ([1, 2, 3] : List (Fin 4)).foldl (fun b i => if f b < f i then i else b) 0

/-- decoder.py:40: `aa`. -/
noncomputable def choice (R : Fin 4 → Fin 4 → Outcomes n → ℝ) (s : Outcomes n) : Fin 4 := argmax fun c => score R c s

/-- decoder.py:41-43: the array multiplied with `bb`. -/
noncomputable def corrected (R : Fin 4 → Fin 4 → Outcomes n → ℝ) (i j : Fin 4) (s : Outcomes n) : ℝ := R i j s * sk (choice R s) i

/-- decoder.py:17-44: what `computeErrorRate` makes of the result of the contraction. -/
noncomputable def decode (bf : Fin 2 → Fin 2 → ℝ) (m : Nat) (res : Fin 2 → Fin 2 → Fin 2 → Fin 2 → Outcomes n → ℂ) (i j : Fin 4) : ℝ :=
  (∑ s, corrected (fun i j => merge bf m (ptm res i j)) i j s) * 512

end Qec

end Verif
