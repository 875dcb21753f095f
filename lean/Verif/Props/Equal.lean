import Verif.Model.Equal
import Verif.Props.Operators
import Mathlib.Analysis.Normed.Field.Basic
import Mathlib.Analysis.Complex.Basic
/-!
# C76: `==` compares values up to numpy's tolerances, `normalize` divides by the norm
-/

namespace Verif

namespace TVal

variable {L : Type} [AddCommMonoid L] {B : Backend L ℂ}

/-- **C76**: `a == b` for two objects of one shape is `True` exactly if each entry of `a` differs from that of `b` by at most
`1e-8 + 1e-5 |b|`; the way the objects are built does not matter. -/
theorem c76_eq (hB : B.Sound) (hR : B.Reliable) {a b : TVal ℂ} {sh : List Nat} {d k : Nat} (ha : a.shape = some (sh.map some))
    (hb : b.shape = some (sh.map some)) (ta : Solid d a) (tb : Solid d b) (hk : d ≤ k) :
    ∃ v, eqVal B k false a b = some v ∧ (v = true ↔ ∀ idx, InRange sh idx → ‖a.tot idx - b.tot idx‖ ≤ 1 / 10 ^ 8 + 1 / 10 ^ 5 * ‖b.tot idx‖) := by
  obtain ⟨x, h1, h2, h3⟩ := solid_contract hB hR hB hR ha ta hk
  obtain ⟨y, h4, h5, h6⟩ := solid_contract hB hR hB hR hb tb hk
  unfold eqVal
  rw [if_neg (by simp), if_neg (by rw [ha, hb]; simp), h1, h4]
  unfold allClose
  dsimp only
  rw [if_pos (h2.trans h5.symm)]
  refine ⟨_, rfl, ?_⟩
  classical
  rw [decide_eq_true_iff, h2]
  exact forall_congr' fun idx => forall_congr' fun hi => by rw [h3 idx hi, h6 idx hi]

/-- **C76**: objects with the same entries are equal, whatever their structure. -/
theorem c76_same (hB : B.Sound) (hR : B.Reliable) {a b : TVal ℂ} {sh : List Nat} {d k : Nat} (ha : a.shape = some (sh.map some))
    (hb : b.shape = some (sh.map some)) (ta : Solid d a) (tb : Solid d b) (hk : d ≤ k) (h : ∀ idx, InRange sh idx → a.tot idx = b.tot idx) :
    eqVal B k false a b = some true := by
  obtain ⟨v, h1, h2⟩ := c76_eq hB hR ha hb ta tb hk
  rw [h1, h2.2]
  intro idx hi
  rw [h idx hi, sub_self, norm_zero]
  positivity

/-- **C76**: objects of different shapes are not equal. -/
theorem c76_shape {a b : TVal ℂ} (h : a.shape ≠ b.shape) (k : Nat) : eqVal B k false a b = some false := by
  unfold eqVal; rw [if_neg (by simp), if_pos h]

theorem eq_scalar (k : Nat) (x y : ℂ) : ∃ v, eqVal B k false (scalar x) (scalar y) = some v ∧ (v = true ↔ ‖x - y‖ ≤ 1 / 10 ^ 8 + 1 / 10 ^ 5 * ‖y‖) := by
  unfold eqVal
  rw [if_neg (by simp), if_neg (by unfold scalar; rw [shape, shape]; simp), scalar, scalar, contract_ten, contract_ten]
  unfold allClose
  dsimp only
  rw [if_pos rfl]
  refine ⟨_, rfl, ?_⟩
  classical
  rw [decide_eq_true_iff]
  exact ⟨fun h => h [] List.Forall₂.nil, fun h _ _ => h⟩

theorem eq_scalar_true {k : Nat} {x y : ℝ} (h : |x - y| ≤ 1 / 10 ^ 8 + 1 / 10 ^ 5 * |y|) : eqVal B k false (scalar (x : ℂ)) (scalar (y : ℂ)) = some true := by
  obtain ⟨v, h1, h2⟩ := eq_scalar (B := B) k (x : ℂ) (y : ℂ)
  rw [h1, h2.2]
  rw [← Complex.ofReal_sub, Complex.norm_real, Complex.norm_real]; exact h

theorem eq_scalar_false {k : Nat} {x y : ℝ} (h : 1 / 10 ^ 8 + 1 / 10 ^ 5 * |y| < |x - y|) : eqVal B k false (scalar (x : ℂ)) (scalar (y : ℂ)) = some false := by
  obtain ⟨v, h1, h2⟩ := eq_scalar (B := B) k (x : ℂ) (y : ℂ)
  rw [h1]
  cases v with
  | false => rfl
  | true =>
    have := h2.1 rfl
    rw [← Complex.ofReal_sub, Complex.norm_real, Complex.norm_real] at this
    exact absurd this (not_le.2 h)

/-- C76, `==` is no equivalence: it is not symmetric. -/
theorem c76_symm_violated (B : Backend L ℂ) (k : Nat) : ∃ a b : TVal ℂ, eqVal B k false a b = some true ∧ eqVal B k false b a = some false := by
  refine ⟨scalar ((1 - (1 / 10 ^ 8 + 1 / 10 ^ 5) : ℝ) : ℂ), scalar ((1 : ℝ) : ℂ), eq_scalar_true ?_, eq_scalar_false ?_⟩
  · norm_num [abs_of_pos, abs_of_neg]
  · norm_num [abs_of_pos, abs_of_neg]

/-- C76, `==` is no equivalence: it is not transitive. -/
theorem c76_trans_violated (B : Backend L ℂ) (k : Nat) : ∃ a b c : TVal ℂ, eqVal B k false a b = some true ∧ eqVal B k false b c = some true ∧
    eqVal B k false a c = some false := by
  refine ⟨scalar ((0 : ℝ) : ℂ), scalar ((1 / 10 ^ 8 : ℝ) : ℂ), scalar ((2 / 10 ^ 8 : ℝ) : ℂ), eq_scalar_true ?_, eq_scalar_true ?_, eq_scalar_false ?_⟩
  · norm_num [abs_of_pos, abs_of_neg]
  · norm_num [abs_of_pos, abs_of_neg]
  · norm_num [abs_of_pos, abs_of_neg]

/-! ## States of many qubits -/

theorem sumIdx_const (n : Nat) (c : ℂ) : sumIdx (List.replicate n 2) (fun _ => c) = 2 ^ n * c := by
  induction n with
  | zero => simp [sumIdx]
  | succ n ih =>
    rw [List.replicate_succ, sumIdx, Finset.sum_congr rfl fun _ _ => ih, Finset.sum_const, Finset.card_range, nsmul_eq_mul, pow_succ]
    push_cast; ring

/-- The state of 56 qubits in which all are `|+⟩`. -/
noncomputable def plusMany : Arr ℂ := ⟨List.replicate 56 2, fun _ => 1 / 2 ^ 28⟩

/-- The state of 56 qubits in which the first is `|-⟩` and the others are `|+⟩`. -/
noncomputable def minusMany : Arr ℂ := ⟨List.replicate 56 2, fun idx => if idx.head? = some 0 then 1 / 2 ^ 28 else -1 / 2 ^ 28⟩

/-- C76: `==` does not tell states of many qubits apart. The two states have norm 1 and are orthogonal. -/
theorem c76_states_violated (B : Backend L ℂ) (k : Nat) : eqVal B k false (.ten (some plusMany)) (.ten (some minusMany)) = some true ∧
    sumIdx plusMany.shape (fun idx => plusMany.get idx * star (plusMany.get idx)) = 1 ∧
    sumIdx minusMany.shape (fun idx => minusMany.get idx * star (minusMany.get idx)) = 1 ∧
    sumIdx plusMany.shape (fun idx => plusMany.get idx * star (minusMany.get idx)) = 0 := by
  refine ⟨?_, ?_, ?_, ?_⟩
  · unfold eqVal
    rw [if_neg (by simp), if_neg (by rw [shape, shape]; simp [plusMany, minusMany]), contract_ten, contract_ten]
    unfold allClose
    dsimp only
    classical
    rw [if_pos (show plusMany.shape = minusMany.shape from rfl), decide_eq_true]
    intro idx _
    unfold plusMany minusMany
    dsimp only
    have h0 : (0 : ℝ) ≤ 1 / 10 ^ 5 * ‖(if idx.head? = some 0 then 1 / 2 ^ 28 else -1 / 2 ^ 28 : ℂ)‖ := by positivity
    refine le_trans ?_ (le_add_of_nonneg_right h0)
    split
    · rw [sub_self, norm_zero]; norm_num
    · have : (1 / 2 ^ 28 - -1 / 2 ^ 28 : ℂ) = ((1 / 2 ^ 27 : ℝ) : ℂ) := by push_cast; norm_num
      rw [this, Complex.norm_real, Real.norm_of_nonneg (by norm_num)]; norm_num
  · have : ∀ idx, plusMany.get idx * star (plusMany.get idx) = 1 / 2 ^ 56 := by
      intro idx; unfold plusMany; dsimp only; rw [show (star (1 / 2 ^ 28 : ℂ)) = 1 / 2 ^ 28 by simp]; norm_num
    rw [funext this]
    unfold plusMany; dsimp only
    rw [sumIdx_const]; norm_num
  · have : ∀ idx, minusMany.get idx * star (minusMany.get idx) = 1 / 2 ^ 56 := by
      intro idx; unfold minusMany; dsimp only
      split
      · rw [show (star (1 / 2 ^ 28 : ℂ)) = 1 / 2 ^ 28 by simp]; norm_num
      · rw [show (star (-1 / 2 ^ 28 : ℂ)) = -1 / 2 ^ 28 by simp]; norm_num
    rw [funext this]
    unfold minusMany; dsimp only
    rw [sumIdx_const]; norm_num
  · unfold plusMany minusMany
    dsimp only
    rw [show List.replicate 56 2 = 2 :: List.replicate 55 2 from rfl, sumIdx, Finset.sum_range_succ, Finset.sum_range_one]
    simp only [List.head?_cons, Option.some.injEq, if_true, one_ne_zero, if_false]
    rw [sumIdx_const, sumIdx_const]
    simp
    ring

/-! ## normalize -/

theorem sumIdx_scale (c : ℝ) : ∀ (sh : List Nat) (f : List Nat → ℝ), sumIdx sh (fun idx => c * f idx) = c * sumIdx sh f
  | [], f => rfl
  | d :: sh, f => by rw [sumIdx, sumIdx, Finset.mul_sum]; exact Finset.sum_congr rfl fun x _ => sumIdx_scale c sh _

/-- `norm_squared` of all classes is the sum of the squares of the absolute values of the entries. -/
theorem normSquared_eq (hB : B.Sound) (hR : B.Reliable) {ia ib : Nm} {t : TVal ℂ} {sh : List Nat} {d k : Nat} (hia : NodeName ia) (hib : NodeName ib)
    (hne : ia ≠ ib) (hw : Whole t) (hs : t.shape = some (sh.map some)) (ht : Solid d t) (pa : Apart ia sh.length t) (pb : Apart ib sh.length t) (hk : d < k) :
    normSquared B k ia t ib = some (sumIdx sh fun idx => Complex.normSq (t.tot idx)) := by
  obtain ⟨r, a1, -, a3⟩ := solid_contract hB hR hB hR hs ht (k := k) (by omega)
  have hgen : ∃ c, normNet ia t ib = .ok c ∧ (contract B k B c).map (fun r => (r.get []).re) = some (sumIdx sh fun idx => Complex.normSq (t.tot idx)) := by
    obtain ⟨c, r', rc, h1, h2, h3, h4, h5⟩ := c28_contract_partial hB hR hB hR hia hib hne hw hs ht pa pb hk
    rw [a1] at h2; cases h2
    refine ⟨c, h1, ?_⟩
    rw [h3, Option.map_some, h5]
    have : (sumIdx sh fun idx => r.get idx * star (r.get idx)) = ((sumIdx sh fun idx => Complex.normSq (t.tot idx) : ℝ) : ℂ) := by
      rw [sumIdx_ofReal]
      refine sumIdx_congr fun idx hi => ?_
      rw [a3 idx hi]; exact Complex.mul_conj _
    rw [this, Complex.ofReal_re]
  cases t with
  | ten a =>
    cases a with
    | none => rw [shape] at hs; cases hs
    | some a =>
      have hsh : a.shape = sh := by
        rw [shape] at hs
        exact List.map_injective_iff.2 (Option.some_injective _) (Option.some.inj hs)
      unfold normSquared
      dsimp only
      rw [Real.sq_sqrt (sumIdx_nonneg fun _ _ => by positivity), hsh]
      congr 1
      refine sumIdx_congr fun idx _ => ?_
      rw [tot, Complex.normSq_eq_norm_sq]
  | net ns es adj op c => obtain ⟨c', h1, h2⟩ := hgen; unfold normSquared; dsimp only; rw [h1]; exact h2
  | sum ts => obtain ⟨c', h1, h2⟩ := hgen; unfold normSquared; dsimp only; rw [h1]; exact h2
  | view t => obtain ⟨c', h1, h2⟩ := hgen; unfold normSquared; dsimp only; rw [h1]; exact h2

/-- **C76**: `normalize` of an object that is not zero has the entries divided by the norm, and norm 1. -/
theorem c76_normalize (hB : B.Sound) (hR : B.Reliable) {ia ib i1 : Nm} {t : TVal ℂ} {sh : List Nat} {d k : Nat} (hia : NodeName ia) (hib : NodeName ib)
    (hi1 : NodeName i1) (hne : ia ≠ ib) (hne1 : ia ≠ i1) (hw : Whole t) (hs : t.shape = some (sh.map some)) (ht : Solid d t) (pa : Apart ia sh.length t)
    (pb : Apart ib sh.length t) (hk : d < k) {i : List Nat} (hi : InRange sh i) (h0 : t.tot i ≠ 0) :
    ∃ c rc, normalize B k ia t ib i1 = some c ∧ contract B k B c = some rc ∧ rc.shape = sh ∧
      (∀ idx, InRange sh idx → rc.get idx = t.tot idx / (Real.sqrt (sumIdx sh fun idx => ‖t.tot idx‖ ^ 2) : ℝ)) ∧
      sumIdx sh (fun idx => ‖rc.get idx‖ ^ 2) = 1 := by
  have hN := normSquared_eq hB hR hia hib hne hw hs ht pa pb hk
  have e : (fun idx => Complex.normSq (t.tot idx)) = fun idx => ‖t.tot idx‖ ^ 2 := funext fun idx => Complex.normSq_eq_norm_sq _
  rw [e] at hN
  generalize hx : (sumIdx sh fun idx => ‖t.tot idx‖ ^ 2) = x at hN
  have hx0 : x ≠ 0 := by
    intro h
    rw [← hx, sumIdx_eq_zero fun _ _ => by positivity] at h
    have := h i hi
    exact h0 (norm_eq_zero.1 (pow_eq_zero_iff (two_ne_zero)|>.1 this))
  have hxp : 0 < x := lt_of_le_of_ne (hx ▸ sumIdx_nonneg fun _ _ => by positivity) (Ne.symm hx0)
  obtain ⟨c, ra, rb, rc, k1, k2, k3, k4, k5, k6⟩ := c25_contract_partial hB hR hB hR hia hi1 hne1 hs
    (b := scalar ((1 / Real.sqrt x : ℝ) : ℂ)) (sb := []) (by rw [scalar, shape]) (Or.inr rfl) ht (solid_ten d _) (by simpa using pa)
    (apart_ten _ _ _) hk
  obtain ⟨r, a1, -, a3⟩ := solid_contract hB hR hB hR hs ht (k := k) (by omega)
  rw [a1] at k2; cases k2
  rw [scalar, contract_ten] at k3; cases k3
  have hrc : ∀ idx, InRange sh idx → rc.get idx = t.tot idx / (Real.sqrt x : ℝ) := by
    intro idx hidx
    have := k6 idx [] hidx List.Forall₂.nil
    rw [List.append_nil, a3 idx hidx] at this
    rw [this]
    push_cast
    ring
  refine ⟨c, rc, ?_, k4, by rw [k5, List.append_nil], hrc, ?_⟩
  · unfold normalize
    rw [hN]
    dsimp only
    rw [if_neg hx0, k1]; rfl
  · have : (sumIdx sh fun idx => ‖rc.get idx‖ ^ 2) = sumIdx sh fun idx => x⁻¹ * ‖t.tot idx‖ ^ 2 := by
      refine sumIdx_congr fun idx hidx => ?_
      rw [hrc idx hidx, norm_div, Complex.norm_real, Real.norm_of_nonneg (Real.sqrt_nonneg _), div_pow, Real.sq_sqrt hxp.le]
      ring
    rw [this, sumIdx_scale, hx, inv_mul_cancel₀ hx0]

/-- C76: `normalize` of a zero object divides by zero. -/
theorem c76_zero_violated (hB : B.Sound) (hR : B.Reliable) {ia ib i1 : Nm} {t : TVal ℂ} {sh : List Nat} {d k : Nat} (hia : NodeName ia) (hib : NodeName ib)
    (hne : ia ≠ ib) (hw : Whole t) (hs : t.shape = some (sh.map some)) (ht : Solid d t) (pa : Apart ia sh.length t)
    (pb : Apart ib sh.length t) (hk : d < k) (h0 : ∀ i, InRange sh i → t.tot i = 0) : normalize B k ia t ib i1 = none := by
  unfold normalize
  rw [normSquared_eq hB hR hia hib hne hw hs ht pa pb hk]
  dsimp only
  rw [if_pos]
  rw [sumIdx_eq_zero fun _ _ => Complex.normSq_nonneg _]
  intro idx hi
  rw [h0 idx hi, map_zero]

/-! ## A concrete case -/

/-- The backend of the examples, with the default order finder. -/
noncomputable def complexEngine : Backend Nat ℂ where
  glue := stdGlue
  memory := 16
  finder := defaultFinder id fun _ _ => 0
  srt := id
  engine := plainEngine
  ex := fun _ => 1

theorem complexEngine_sound : complexEngine.Sound := ⟨stdGlue_sound, fun l => List.Perm.refl l, plainEngine_sound⟩

theorem complexEngine_reliable : complexEngine.Reliable :=
  Backend.reliable_default complexEngine_sound rfl (by intros; show 0 * 3 * 2 ^ 4 ≤ _; omega)

/-- The product of the vector (3, 4i) and the number 2, a network, is equal to the vector (6, 8i) but not to (6, 9i), and its normalization has the
entry 3/5. -/
example : ∃ t : TVal ℂ, mul (.int 0) (arrVal [2] fun l => if l = [0] then 3 else 4 * Complex.I) (.int 1) (scalar 2) = .ok t ∧
    eqVal complexEngine 4 false t (arrVal [2] fun l => if l = [0] then 6 else 8 * Complex.I) = some true ∧
    eqVal complexEngine 4 false t (arrVal [2] fun l => if l = [0] then 6 else 9 * Complex.I) = some false ∧
    ∃ c rc, normalize complexEngine 4 (.int 0) t (.int 1) (.int 2) = some c ∧ contract complexEngine 4 complexEngine c = some rc ∧ rc.get [0] = 3 / 5 := by
  have S := complexEngine_sound
  have H := complexEngine_reliable
  have ha : (arrVal [2] fun l => if l = [0] then (3 : ℂ) else 4 * Complex.I).shape = some ([2].map some) := by rw [arrVal, shape]
  obtain ⟨t, h1, h2, h3⟩ := mul_scalar_tot (ia := .int 0) (ib := .int 1) (c := (2 : ℂ)) (by decide) ha
  obtain ⟨h4, h5⟩ := solid_mul (nodeName_int 0) (nodeName_int 1) (by decide) ha (b := scalar 2) (sb := []) (by rw [scalar, shape])
    (by intro k d d' _ h; simp at h) (solid_ten 0 _) (solid_ten 0 _) (apart_ten _ _ _) (apart_ten _ _ _) h1
  have hw : Whole t := mul_whole h1 (by rw [arrVal, Whole]; trivial) (by rw [scalar, Whole]; trivial)
  have hv : ∀ idx, InRange [2] idx → t.tot idx = if idx = [0] then 6 else 8 * Complex.I := by
    intro idx hi
    rw [h3 idx hi, arrVal, tot]
    dsimp only
    split
    · norm_num
    · ring
  have hin0 : InRange [2] [0] := by simp [InRange]
  have hin1 : InRange [2] [1] := by simp [InRange]
  refine ⟨t, h1, ?_, ?_, ?_⟩
  · refine c76_same S H (d := 1) h2 (by rw [arrVal, shape]) h4 (solid_ten 1 _) (by omega) fun idx hi => ?_
    rw [hv idx hi, arrVal, tot]
  · obtain ⟨v, k1, k2⟩ := c76_eq S H (d := 1) (k := 4) h2 (b := arrVal [2] fun l => if l = [0] then 6 else 9 * Complex.I) (by rw [arrVal, shape]) h4
      (solid_ten 1 _) (by omega)
    rw [k1]
    cases v with
    | false => rfl
    | true =>
      have := k2.1 rfl [1] hin1
      rw [hv _ hin1, arrVal, tot] at this
      simp only [List.cons.injEq, one_ne_zero, and_true, if_false] at this
      rw [← sub_mul, norm_mul, norm_mul, Complex.norm_I] at this
      norm_num at this
  · obtain ⟨c, rc, k1, k2, -, k3, -⟩ := c76_normalize S H (ia := .int 0) (ib := .int 1) (i1 := .int 2) (k := 4) (nodeName_int 0) (nodeName_int 1)
      (nodeName_int 2) (by decide) (by decide) hw h2 h4 (h5.apart _ _) (h5.apart _ _) (by omega) hin0 (by rw [hv _ hin0]; norm_num)
    refine ⟨c, rc, k1, k2, ?_⟩
    rw [k3 _ hin0, hv _ hin0]
    have : (sumIdx [2] fun idx => ‖t.tot idx‖ ^ 2) = 10 ^ 2 := by
      rw [sumIdx, Finset.sum_range_succ, Finset.sum_range_one, sumIdx, sumIdx, hv _ hin0, hv _ hin1]
      simp only [List.cons.injEq, one_ne_zero, and_true, if_false, if_true]
      rw [norm_mul, Complex.norm_I]
      norm_num
    rw [this, Real.sqrt_sq (by norm_num)]
    norm_num

end TVal

end Verif
