import Verif.Lemmas.QaoaValue
import Verif.Lemmas.ExpandLoop
import Verif.Spec.QaoaState
import Mathlib.Tactic.FieldSimp
import Mathlib.Tactic.Linarith
import Mathlib.Tactic.LinearCombination
import Mathlib.Tactic.IntervalCases
/-!
# C61: the QAOA demo evaluates the mean energy of the QAOA state
-/

namespace Verif

open Cone

/-- The cost function of an instance. -/
noncomputable def cspCost (csp : Dict (List Nm) (Arr ℝ)) (c : List Nm) (idx : List Nat) : ℝ := ((csp.get? c).map fun C => C.get idx).getD 0

section
variable {R : Type} [CommSemiring R]

theorem map_sumOver {R' E : Type} [DecidableEq E] [CommSemiring R'] (φ : R →+* R') (dom : E → Finset Nat) (f : (E → Nat) → R) :
    ∀ (l : List E) (a : E → Nat), φ (sumOver dom l f a) = sumOver dom l (fun b => φ (f b)) a
  | [], _ => rfl
  | e :: l, a => by
    rw [sumOver_cons, sumOver_cons, map_sum]
    exact Finset.sum_congr rfl fun x _ => map_sumOver φ dom f l _

theorem map_amp {R' : Type} [CommSemiring R'] (φ : R →+* R') (V : List Nm) (csp : List (List Nm)) (X : Nat → Nat → Nat → R) (P : Nat → List Nm → List Nat → R) :
    ∀ (k i : Nat) (x : Nm → Nat), φ (qaoaAmp V csp X P k i x) = qaoaAmp V csp (fun i a b => φ (X i a b)) (fun i c idx => φ (P i c idx)) k i x
  | 0, _, _ => map_one φ
  | k + 1, i, x => by
    rw [qaoaAmp, qaoaAmp, map_sumOver]
    refine sumOver_congr fun b => ?_
    rw [map_mul, map_mul, map_amp φ V csp X P k (i + 1) b, map_list_prod, map_list_prod, List.map_map, List.map_map]
    rfl

/-- The light cone of a clause: the network never fails to build, and it stands for the mean of the clause in the state of all qubits: the gates outside
the cone cancel.  The entries `R` are arbitrary, so are the order in which sets are iterated, the rotations (unitary) and the phases. -/
theorem c61_cone {τ : Type} [HasShape τ] {perm : List Nm → List Nm} (hp : ∀ l, (perm l).Perm l) {hole : τ} (hh : HasShape.shape hole = none)
    {csp : List (List Nm)} (hcsp : csp.Nodup) {clause V : List Nm} (hV : V.Nodup) (hsub : ∀ c ∈ csp, ∀ q ∈ c, q ∈ V) (hcl : ∀ q ∈ clause, q ∈ V) {L : Nat} (hL : 0 < L)
    {A : Type} {f : Nm → A} {val : A → List Nat → R} {X Xc : Nat → Nat → Nat → R} {P Pc : Nat → List Nm → List Nat → R}
    (hU : ∀ i x y, x < 2 → y < 2 → ∑ z ∈ Finset.range 2, X i z x * Xc i z y = if x = y then 1 else 0) (hP : ∀ i c idx, P i c idx * Pc i c idx = 1)
    (hF : Entries (fun n => val (f n)) X Xc P Pc csp L) :
    ∃ tn n, clauseNet perm hole csp L clause = .ok (tn, n) ∧ n ≤ V.length ∧
      qaoaMean V csp X Xc P Pc L (fun x => val (f (pt 0 (Nm.ofList clause))) (clause.map x)) = 2 ^ (V.length - n) * (tn.withData f).value val [] := by
  obtain ⟨tn, h1, h2⟩ := clauseNet_value hp hh hcsp hV hsub hcl hL (f := f) (val := val) hF
  have hS := coneSet_isCone hV hsub hcl
  have hlen := (split_perm hS L).length_eq
  rw [List.length_append] at hlen
  refine ⟨tn, _, h1, by omega, ?_⟩
  rw [mean_cone hS (fun x y h => ?_) hU hP L, h2, show V.length - (coneSet csp clause L).length = (V.filter fun q => decide (q ∉ coneSet csp clause L)).length by omega]
  rw [List.map_congr_left fun q hq => h q (List.mem_dedup.2 hq)]

end

theorem mixer_unitary (β : Nat → ℝ) (i x y : Nat) (hx : x < 2) (hy : y < 2) :
    ∑ z ∈ Finset.range 2, mixer (β i) z x * (starRingEnd ℂ) (mixer (β i) z y) = if x = y then 1 else 0 := by
  have h := Complex.sin_sq_add_cos_sq ((β i : ℝ) : ℂ)
  have hI : Complex.I ^ 2 = -1 := Complex.I_sq
  have hx : x = 0 ∨ x = 1 := by omega
  have hy : y = 0 ∨ y = 1 := by omega
  rw [Finset.sum_range_succ, Finset.sum_range_one]
  rcases hx with rfl | rfl <;> rcases hy with rfl | rfl <;> simp [mixer, Complex.conj_ofReal, -Complex.ofReal_cos, -Complex.ofReal_sin] <;>
    (try simp only [Complex.ofReal_cos, Complex.ofReal_sin]) <;> ring_nf <;> (try rw [hI]) <;> linear_combination h

theorem phase_conj (t : ℝ) : Complex.exp ((t : ℂ) * Complex.I) * (starRingEnd ℂ) (Complex.exp ((t : ℂ) * Complex.I)) = 1 := by
  rw [← Complex.exp_conj, ← Complex.exp_add, map_mul, Complex.conj_I, Complex.conj_ofReal]
  simp

/-- The mean of the specification as a sum over both sides. -/
theorem expect_eq (V : List Nm) (clauses : List (List Nm)) (cost : List Nm → List Nat → ℝ) (β γ : Nat → ℝ) (L : Nat) (f : (Nm → Nat) → ℝ) :
    ((qaoaExpect V clauses cost β γ L f : ℝ) : ℂ) * 2 ^ V.length =
      qaoaMean V clauses (fun i => mixer (β i)) (fun i a b => (starRingEnd ℂ) (mixer (β i) a b)) (fun i c idx => Complex.exp (((γ i * cost c idx : ℝ) : ℂ) * Complex.I))
        (fun i c idx => (starRingEnd ℂ) (Complex.exp (((γ i * cost c idx : ℝ) : ℂ) * Complex.I))) L fun x => (f x : ℂ) := by
  unfold qaoaExpect qaoaMean
  have h := map_sumOver Complex.ofRealHom bitDom (fun x => f x * qaoaProb V clauses cost β γ L x) V fun _ => 0
  rw [Complex.ofRealHom_eq_coe] at h
  rw [h, mul_comm, ← sumOver_const_mul]
  refine sumOver_congr fun x => ?_
  rw [← map_amp (starRingEnd ℂ), Complex.mul_conj]
  simp only [Complex.ofRealHom_eq_coe, qaoaProb, qaoaPsi]
  generalize Complex.normSq _ = z
  push_cast
  field_simp

/-- The probabilities sum to one. -/
theorem c61_prob {V : List Nm} (hV : V.Nodup) {clauses : List (List Nm)} (hsub : ∀ c ∈ clauses, ∀ q ∈ c, q ∈ V) (cost : List Nm → List Nat → ℝ) (β γ : Nat → ℝ) (L : Nat) :
    qaoaExpect V clauses cost β γ L (fun _ => 1) = 1 := by
  have h := expect_eq V clauses cost β γ L fun _ => 1
  have hS : IsCone V clauses (fun _ => []) := ⟨hV, hsub, fun _ => List.nodup_nil, by simp, by simp, fun _ c _ h => by simp [meets] at h⟩
  rw [mean_cone hS (fun _ _ _ => rfl) (mixer_unitary β) (fun i c idx => phase_conj _) L] at h
  have hc : ∀ (i : Nat) (a : Pt → Nat), coneIn (fun i => mixer (β i)) (fun i a b => (starRingEnd ℂ) (mixer (β i) a b)) (fun i c idx => Complex.exp (((γ i * cost c idx : ℝ) : ℂ) * Complex.I))
        (fun i c idx => (starRingEnd ℂ) (Complex.exp (((γ i * cost c idx : ℝ) : ℂ) * Complex.I))) (fun _ => ((1 : ℝ) : ℂ)) (fun _ => []) clauses i a = 1 := by
    intro i
    induction i with
    | zero => intro a; simp [coneIn]
    | succ i ih =>
      intro a
      have hm : clauses.filter (meets []) = [] := by simp [meets]
      rw [coneIn, hm]
      simp only [level, List.flatMap_nil, sumOver_nil, List.map_nil, List.prod_nil, List.filter_nil, one_mul]
      exact ih a
  rw [show level L [] = [] from rfl, sumOver_nil, hc] at h
  have h2 : ((2 : ℂ) ^ V.length) ≠ 0 := pow_ne_zero _ two_ne_zero
  have h3 : (V.filter fun q => decide (q ∉ ([] : List Nm))) = V := by simp
  rw [h3, mul_one, mul_eq_right₀ h2] at h
  exact_mod_cast h

/-- The mean lies between any bounds of the function on bit strings. -/
theorem c61_between {V : List Nm} (hV : V.Nodup) {clauses : List (List Nm)} (hsub : ∀ c ∈ clauses, ∀ q ∈ c, q ∈ V) (cost : List Nm → List Nat → ℝ) (β γ : Nat → ℝ) (L : Nat)
    {f : (Nm → Nat) → ℝ} {lo : ℝ} (hlo : ∀ x : Nm → Nat, (∀ q ∈ V, x q < 2) → lo ≤ f x) : lo ≤ qaoaExpect V clauses cost β γ L f := by
  have hmono : ∀ (l : List Nm) (f g : (Nm → Nat) → ℝ) (a : Nm → Nat), (∀ b, Reach bitDom l a b → f b ≤ g b) → sumOver bitDom l f a ≤ sumOver bitDom l g a := by
    intro l
    induction l with
    | nil => exact fun f g a h => h a ⟨fun _ _ => rfl, by simp⟩
    | cons e l ih =>
      intro f g a h
      rw [sumOver_cons, sumOver_cons]
      exact Finset.sum_le_sum fun x hx => ih f g _ fun b hb => h b (hb.cons hx)
  have h1 := c61_prob hV hsub cost β γ L
  unfold qaoaExpect at *
  calc lo = lo * sumOver bitDom V (fun x => 1 * qaoaProb V clauses cost β γ L x) (fun _ => 0) := by rw [h1, mul_one]
    _ = sumOver bitDom V (fun x => lo * (1 * qaoaProb V clauses cost β γ L x)) (fun _ => 0) := (sumOver_const_mul _ _ _ _ _).symm
    _ ≤ _ := by
      refine hmono V _ _ _ fun b hb => ?_
      rw [one_mul]
      refine mul_le_mul_of_nonneg_right (hlo b fun q hq => Finset.mem_range.1 (hb.2 q hq)) ?_
      unfold qaoaProb
      exact div_nonneg (Complex.normSq_nonneg _) (by positivity)

/-- The angles of the layers, numbered from the last. -/
def Angles (L : Nat) (params : List ℝ) (β γ : Nat → ℝ) : Prop :=
  params.length = 2 * L ∧ ∀ i, 1 ≤ i → i ≤ L → params[L - i]? = some (β i) ∧ params[2 * L - i]? = some (γ i)

theorem angles_of {L : Nat} {params : List ℝ} (h : params.length = 2 * L) : Angles L params (fun i => params.getD (L - i) 0) (fun i => params.getD (2 * L - i) 0) := by
  refine ⟨h, fun i h1 h2 => ⟨?_, ?_⟩⟩
  · beta_reduce
    rw [List.getD_eq_getElem?_getD, List.getElem?_eq_getElem (by omega)]; rfl
  · beta_reduce
    rw [List.getD_eq_getElem?_getD, List.getElem?_eq_getElem (by omega)]; rfl

theorem Angles.beta {L : Nat} {params : List ℝ} {β γ : Nat → ℝ} (h : Angles L params β γ) {i : Nat} (h1 : 1 ≤ i) (h2 : i ≤ L) : fromEnd (params.take L) i = β i := by
  unfold fromEnd
  have hl := h.1
  rw [List.length_take, show min L params.length = L by omega, List.getD_eq_getElem?_getD, List.getElem?_take, if_pos (by omega), (h.2 i h1 h2).1]
  rfl

theorem Angles.gamma {L : Nat} {params : List ℝ} {β γ : Nat → ℝ} (h : Angles L params β γ) {i : Nat} (h1 : 1 ≤ i) (h2 : i ≤ L) : fromEnd (params.drop L) i = γ i := by
  unfold fromEnd
  have hl := h.1
  rw [List.length_drop, List.getD_eq_getElem?_getD, List.getElem?_drop, show L + (params.length - L - i) = 2 * L - i by omega, (h.2 i h1 h2).2]
  rfl

theorem rotData_pos {L : Nat} {params : List ℝ} {β γ : Nat → ℝ} (h : Angles L params β γ) {i : Nat} (hi : i < L) : rotData L params ((i + 1 : Nat) : Int) = some (xrot (β (i + 1))) := by
  unfold rotData
  rw [if_pos (by omega), Int.toNat_natCast, h.beta (by omega) (by omega)]

theorem rotData_neg {L : Nat} {params : List ℝ} {β γ : Nat → ℝ} (h : Angles L params β γ) {i : Nat} (hi : i < L) :
    rotData L params (-((i + 1 : Nat) : Int)) = some (xrot (-β (i + 1))) := by
  unfold rotData
  rw [if_neg (by omega), if_pos (by omega), neg_neg, Int.toNat_natCast, h.beta (by omega) (by omega)]

theorem phaseData_pos {L : Nat} {params : List ℝ} {β γ : Nat → ℝ} (h : Angles L params β γ) {csp : Dict (List Nm) (Arr ℝ)} {clauses : List (List Nm)} {c : List Nm} (hc : c ∈ clauses)
    {C : Arr ℝ} (hC : csp.get? c = some C) {i : Nat} (hi : i < L) :
    phaseData L params csp clauses ((i + 1 : Nat) : Int) c = some ⟨C.shape, fun idx => Complex.exp (Complex.I * (γ (i + 1) * C.get idx))⟩ := by
  unfold phaseData
  rw [if_pos hc, hC]
  simp only
  rw [if_pos (by omega), Int.toNat_natCast, h.gamma (by omega) (by omega)]

theorem phaseData_neg {L : Nat} {params : List ℝ} {β γ : Nat → ℝ} (h : Angles L params β γ) {csp : Dict (List Nm) (Arr ℝ)} {clauses : List (List Nm)} {c : List Nm} (hc : c ∈ clauses)
    {C : Arr ℝ} (hC : csp.get? c = some C) {i : Nat} (hi : i < L) :
    phaseData L params csp clauses (-((i + 1 : Nat) : Int)) c = some ⟨C.shape, fun idx => Complex.exp (-Complex.I * (γ (i + 1) * C.get idx))⟩ := by
  unfold phaseData
  rw [if_pos hc, hC]
  simp only
  rw [if_neg (by omega), if_pos (by omega), neg_neg, Int.toNat_natCast, h.gamma (by omega) (by omega)]

section
variable {A : Type} (rot : Int → A) (phase : Int → List Nm → A) (obs : A) (i : Nat)

theorem nodeData_pt (k : Int) (x : Nm) :
    nodeData rot phase obs (pt k x) = if k = 0 then obs else if k % 2 = 0 then phase (k / 2) x.tup else rot ((k + if k > 0 then 1 else -1) / 2) := rfl

theorem nodeData_ket (q : Nm) : nodeData rot phase obs (pt (2 * i + 1) q) = rot ((i + 1 : Nat) : Int) := by
  rw [nodeData_pt, if_neg (by omega), if_neg (by omega), if_pos (by omega)]
  congr 1; push_cast; omega

theorem nodeData_bra (q : Nm) : nodeData rot phase obs (pt (-2 * i - 1) q) = rot (-((i + 1 : Nat) : Int)) := by
  rw [nodeData_pt, if_neg (by omega), if_neg (by omega), if_neg (by omega)]
  congr 1; push_cast; omega

theorem nodeData_phase (c : List Nm) : nodeData rot phase obs (pt (2 * i + 2) (Nm.ofList c)) = phase ((i + 1 : Nat) : Int) c := by
  rw [nodeData_pt, if_neg (by omega), if_pos (by omega), Nm.tup_ofList]
  congr 1; push_cast; omega

theorem nodeData_phasec (c : List Nm) : nodeData rot phase obs (pt (-2 * i - 2) (Nm.ofList c)) = phase (-((i + 1 : Nat) : Int)) c := by
  rw [nodeData_pt, if_neg (by omega), if_pos (by omega), Nm.tup_ofList]
  congr 1; push_cast; omega

theorem nodeData_obs (x : Nm) : nodeData rot phase obs (pt 0 x) = obs := by
  rw [nodeData_pt, if_pos rfl]

end

theorem xrot_get (θ : ℝ) (x y : Nat) : (xrot θ).get [x, y] = mixer θ x y := by
  simp [xrot, mixer]

theorem mixer_neg (θ : ℝ) (x y : Nat) : mixer (-θ) x y = (starRingEnd ℂ) (mixer θ x y) := by
  unfold mixer
  split
  · simp only [Real.cos_neg, Complex.conj_ofReal]
  · simp only [Real.sin_neg, map_mul, Complex.conj_I, Complex.conj_ofReal]; push_cast; ring

/-- The data `decorate` gives to the nodes are the gates of the state and their conjugates. -/
theorem clauseData_entries {L : Nat} {params : List ℝ} {β γ : Nat → ℝ} (h : Angles L params β γ) {csp : Dict (List Nm) (Arr ℝ)} {clauses : List (List Nm)}
    (hcl : ∀ c ∈ csp.keys, c ∈ clauses) (m : ℝ) (n : Nat) (clause : List Nm) :
    Entries (fun nm => optGet (clauseData L params csp clauses m n clause nm)) (fun i => mixer (β i)) (fun i a b => (starRingEnd ℂ) (mixer (β i) a b))
      (fun i c idx => Complex.exp (((γ i * cspCost csp c idx : ℝ) : ℂ) * Complex.I)) (fun i c idx => (starRingEnd ℂ) (Complex.exp (((γ i * cspCost csp c idx : ℝ) : ℂ) * Complex.I)))
      csp.keys L where
  ket := fun i hi q x y => by
    rw [clauseData, nodeData_ket, rotData_pos h hi]
    exact xrot_get _ _ _
  bra := fun i hi q x y => by
    rw [clauseData, nodeData_bra, rotData_neg h hi, ← mixer_neg]
    exact xrot_get _ _ _
  phase := fun i hi c hc idx => by
    obtain ⟨C, hC⟩ := Dict.exists_get? hc
    rw [clauseData, nodeData_phase, phaseData_pos h (hcl c hc) hC hi]
    simp only [optGet, Option.map_some, Option.getD_some, cspCost, hC]
    congr 1; push_cast; ring
  phasec := fun i hi c hc idx => by
    obtain ⟨C, hC⟩ := Dict.exists_get? hc
    rw [clauseData, nodeData_phasec, phaseData_neg h (hcl c hc) hC hi, ← Complex.exp_conj]
    simp only [optGet, Option.map_some, Option.getD_some, cspCost, hC, map_mul, Complex.conj_I, Complex.conj_ofReal]
    congr 1; push_cast; ring

/-- What the task of a clause computes: the weight times the mean of the clause in the QAOA state of all variables. -/
theorem c61_clause {τ : Type} [HasShape τ] {perm : List Nm → List Nm} (hp : ∀ l, (perm l).Perm l) {hole : τ} (hh : HasShape.shape hole = none)
    {csp : Dict (List Nm) (Arr ℝ)} (hcsp : csp.keys.Nodup) {clauses : List (List Nm)} (hcl : ∀ c ∈ csp.keys, c ∈ clauses) {clause : List Nm} (hc : clause ∈ csp.keys)
    {V : List Nm} (hV : V.Nodup) (hsub : ∀ c ∈ csp.keys, ∀ q ∈ c, q ∈ V) {L : Nat} (hL : 0 < L) {params : List ℝ} {β γ : Nat → ℝ} (h : Angles L params β γ) (m : ℝ) :
    clauseQuery perm hole csp L params clauses m clause =
      .ok ((m * qaoaExpect V csp.keys (cspCost csp) β γ L (fun x => cspCost csp clause (clause.map x)) : ℝ) : ℂ) := by
  obtain ⟨C, hC⟩ := Dict.exists_get? hc
  have key := fun n => c61_cone hp hh hcsp hV hsub (hsub clause hc) hL (mixer_unitary β) (fun i c idx => phase_conj (γ i * cspCost csp c idx))
    (f := clauseData L params csp clauses m n clause) (val := optGet) (clauseData_entries h hcl m n clause)
  obtain ⟨tn, n, h1, hn, h2⟩ := key 0
  obtain ⟨tn', n', h1', hn, h2⟩ := key n
  rw [h1] at h1'
  obtain ⟨rfl, rfl⟩ := Prod.mk.inj (Except.ok.inj h1')
  unfold clauseQuery
  rw [h1]
  simp only
  congr 1
  have e1 : (fun x : Nm → Nat => optGet (clauseData L params csp clauses m n clause (pt 0 (Nm.ofList clause))) (clause.map x)) =
      fun x => ((m * (2 : ℝ)⁻¹ ^ n * cspCost csp clause (clause.map x) : ℝ) : ℂ) := by
    funext x
    rw [clauseData, nodeData_obs]
    simp [obsData, hC, optGet, cspCost]
  rw [e1, ← expect_eq] at h2
  have e2 : qaoaExpect V csp.keys (cspCost csp) β γ L (fun x => m * (2 : ℝ)⁻¹ ^ n * cspCost csp clause (clause.map x)) =
      m * (2 : ℝ)⁻¹ ^ n * qaoaExpect V csp.keys (cspCost csp) β γ L (fun x => cspCost csp clause (clause.map x)) := by
    unfold qaoaExpect
    rw [← sumOver_const_mul]
    exact sumOver_congr fun b => by rw [mul_assoc]
  rw [e2] at h2
  have hz : ((2 : ℂ) ^ (V.length - n)) ≠ 0 := pow_ne_zero _ two_ne_zero
  refine mul_left_cancel₀ hz (h2.symm.trans ?_)
  have : (2 : ℂ) ^ V.length = 2 ^ (V.length - n) * 2 ^ n := by rw [← pow_add]; congr 1; omega
  rw [this]
  push_cast
  rw [inv_pow]
  field_simp

/-- `query` evaluates the mean energy of the QAOA state. -/
theorem c61_query {τ : Type} [HasShape τ] {perm : List Nm → List Nm} (hp : ∀ l, (perm l).Perm l) {hole : τ} (hh : HasShape.shape hole = none)
    {csp : Dict (List Nm) (Arr ℝ)} (hcsp : csp.keys.Nodup) {clauses : List (List Nm)} (hcl : clauses.Perm csp.keys)
    {V : List Nm} (hV : V.Nodup) (hsub : ∀ c ∈ csp.keys, ∀ q ∈ c, q ∈ V) {L : Nat} (hL : 0 < L) {params : List ℝ} {β γ : Nat → ℝ} (h : Angles L params β γ) :
    query perm hole csp L params clauses = .ok ((qaoaExpect V csp.keys (cspCost csp) β γ L (costOf csp.keys (cspCost csp)) : ℝ) : ℂ) := by
  have h1 : ∀ l : List (List Nm), (∀ c ∈ l, c ∈ csp.keys) → (l.mapM fun c => clauseQuery perm hole csp L params clauses 1 c) =
      .ok (l.map fun c => ((qaoaExpect V csp.keys (cspCost csp) β γ L (fun x => cspCost csp c (c.map x)) : ℝ) : ℂ)) := by
    intro l
    induction l with
    | nil => intro _; rfl
    | cons c l ih =>
      intro hl
      rw [List.mapM_cons, c61_clause hp hh hcsp (fun c hc => hcl.mem_iff.2 hc) (hl c (by simp)) hV hsub hL h, ih fun c hc => hl c (by simp [hc]), one_mul]
      rfl
  unfold query
  rw [h1 clauses fun c hc => hcl.mem_iff.1 hc]
  show Except.ok _ = _
  congr 1
  rw [(hcl.map _).sum_eq]
  have h2 : qaoaExpect V csp.keys (cspCost csp) β γ L (costOf csp.keys (cspCost csp)) =
      (csp.keys.map fun c => qaoaExpect V csp.keys (cspCost csp) β γ L (fun x => cspCost csp c (c.map x))).sum := by
    unfold qaoaExpect costOf
    rw [← sumOver_list_sum]
    refine sumOver_congr fun b => ?_
    rw [List.sum_map_mul_right]
  rw [h2]
  have h3 := map_list_sum Complex.ofRealHom (csp.keys.map fun c => qaoaExpect V csp.keys (cspCost csp) β γ L (fun x => cspCost csp c (c.map x)))
  rw [List.map_map] at h3
  exact h3.symm

theorem joinNL_legs : ∀ {T : List (Nm × Nat)} {NL : List (Nm × List Nm)} {p : Nm × List Nm}, p ∈ joinNL T NL → ∃ l, (p.1, l) ∈ NL ∧ l.length = p.2.length
  | [], _, p, h => ⟨p.2, h, rfl⟩
  | x :: T, NL, p, h => by
    rw [joinNL] at h
    obtain ⟨l, h1, h2⟩ := joinNL_legs h
    obtain ⟨y, hy, hc⟩ := List.mem_map.1 h1
    refine ⟨y.2, ?_, ?_⟩
    · rw [← (Prod.mk.inj hc).1]; exact hy
    · rw [← h2, ← (Prod.mk.inj hc).2, List.length_map]

theorem coneNL_mem {perm : List Nm → List Nm} {csp : List (List Nm)} {S0 : List Nm} : ∀ {L : Nat} {p : Nm × List Nm}, p ∈ coneNL perm csp S0 L →
    (∃ i < L, ∃ q, (p.1 = pt (2 * i + 1) q ∨ p.1 = pt (-2 * i - 1) q) ∧ p.2.length = 2) ∨
    (∃ i < L, ∃ c ∈ csp, (p.1 = pt (2 * i + 2) (Nm.ofList c) ∨ p.1 = pt (-2 * i - 2) (Nm.ofList c)) ∧ p.2.length = c.length)
  | 0, p, h => by simp [coneNL] at h
  | L + 1, p, h => by
    rw [coneNL, List.mem_append, List.mem_append] at h
    rcases h with (h | h) | h
    · rcases coneNL_mem h with ⟨i, hi, h⟩ | ⟨i, hi, h⟩
      · exact Or.inl ⟨i, by omega, h⟩
      · exact Or.inr ⟨i, by omega, h⟩
    · simp only [rotNL, List.mem_flatMap, List.mem_cons, List.not_mem_nil, or_false] at h
      obtain ⟨q, _, rfl | rfl⟩ := h
      · exact Or.inl ⟨L, by omega, q, Or.inl rfl, rfl⟩
      · exact Or.inl ⟨L, by omega, q, Or.inr rfl, rfl⟩
    · simp only [phaseNL, List.mem_flatMap, List.mem_cons, List.not_mem_nil, or_false] at h
      obtain ⟨c, hc, rfl | rfl⟩ := h
      · exact Or.inr ⟨L, by omega, c, (List.mem_filter.1 hc).1, Or.inl rfl, by simp⟩
      · exact Or.inr ⟨L, by omega, c, (List.mem_filter.1 hc).1, Or.inr rfl, by simp⟩

theorem checkInstance_shape {csp : Dict (List Nm) (Arr ℝ)} (h : checkInstance csp = true) {c : List Nm} {C : Arr ℝ} (hC : csp.get? c = some C) :
    C.shape = List.replicate c.length 2 := by
  unfold checkInstance at h
  rw [List.all_eq_true] at h
  have := h _ (Dict.mem_of_get? hC)
  simp only [Bool.and_eq_true, decide_eq_true_eq, List.all_eq_true, beq_iff_eq] at this
  exact List.eq_replicate_iff.2 ⟨this.1.symm, this.2⟩

/-- After `decorate` every node of the network of a clause has data, with one index of dimension 2 for every leg, and all edges have dimension 2. -/
theorem c61_data {τ : Type} [HasShape τ] {perm : List Nm → List Nm} (hp : ∀ l, (perm l).Perm l) {hole : τ} (hh : HasShape.shape hole = none)
    {csp : Dict (List Nm) (Arr ℝ)} (hcsp : csp.keys.Nodup) (hck : checkInstance csp = true) {clauses : List (List Nm)} (hcl : ∀ c ∈ csp.keys, c ∈ clauses)
    {clause : List Nm} (hc : clause ∈ csp.keys) {L : Nat} (hL : 0 < L) {params : List ℝ} (hpar : params.length = 2 * L) (m : ℝ) :
    ∃ tn n, clauseNet perm hole csp.keys L clause = .ok (tn, n) ∧ tn.Consistent ∧ tn.openE = [] ∧ (∀ e r, tn.edges.get? e = some r → r.dim = some 2 ∧ r.fix = none) ∧
      ∀ nm r, tn.nodes.get? nm = some r → ∃ a, clauseData L params csp clauses m n clause nm = some a ∧ a.shape = List.replicate r.legs.length 2 := by
  obtain ⟨tn, T, h1, h2, h3⟩ := clauseNet_ok hp hh hcsp clause hL
  have hang := angles_of hpar
  refine ⟨tn, _, h1, h3.cons, h3.opn, h3.edges, fun nm r hr => ?_⟩
  have hm : (nm, r.legs) ∈ tn.nodes.map fun p => (p.1, p.2.legs) := List.mem_map.2 ⟨_, Dict.mem_of_get? hr, rfl⟩
  rw [h3.legs] at hm
  obtain ⟨l, h4, h5⟩ := joinNL_legs hm
  dsimp only at h4 h5
  rw [← h5]
  rcases List.mem_append.1 h4 with h4 | h4
  · rcases coneNL_mem h4 with ⟨i, hi, q, hn, hl⟩ | ⟨i, hi, c, hcc, hn, hl⟩
    · dsimp only at hn hl
      rw [hl]
      rcases hn with hn | hn
      · exact ⟨_, by rw [hn, clauseData, nodeData_ket, rotData_pos hang hi], rfl⟩
      · exact ⟨_, by rw [hn, clauseData, nodeData_bra, rotData_neg hang hi], rfl⟩
    · dsimp only at hn hl
      obtain ⟨C, hC⟩ := Dict.exists_get? hcc
      rw [hl]
      rcases hn with hn | hn
      · exact ⟨_, by rw [hn, clauseData, nodeData_phase, phaseData_pos hang (hcl c hcc) hC hi], checkInstance_shape hck hC⟩
      · exact ⟨_, by rw [hn, clauseData, nodeData_phasec, phaseData_neg hang (hcl c hcc) hC hi], checkInstance_shape hck hC⟩
  · rw [List.mem_singleton] at h4
    obtain ⟨rfl, rfl⟩ := Prod.mk.inj h4
    obtain ⟨C, hC⟩ := Dict.exists_get? hc
    refine ⟨_, by rw [clauseData, nodeData_obs, obsData, hC]; rfl, ?_⟩
    rw [List.length_map]
    exact checkInstance_shape hck hC

theorem optMapM {A B : Type} {f : A → Option B} {g : A → B} : ∀ {l : List A}, (∀ x ∈ l, f x = some (g x)) → l.mapM f = some (l.map g)
  | [], _ => rfl
  | x :: l, h => by
    rw [List.mapM_cons, h x (by simp), optMapM fun y hy => h y (by simp [hy])]
    rfl

theorem mem_allTuples : ∀ {n : Nat} {l : List Nat}, l ∈ allTuples n ↔ l.length = n ∧ ∀ b ∈ l, b < 2
  | 0, l => by
    rw [allTuples, List.mem_singleton, List.length_eq_zero_iff]
    exact ⟨fun h => ⟨h, by simp [h]⟩, fun h => h.1⟩
  | n + 1, l => by
    rw [allTuples]
    simp only [List.mem_flatMap, List.mem_map, mem_allTuples (n := n)]
    constructor
    · rintro ⟨b, hb, l', ⟨h1, h2⟩, rfl⟩
      refine ⟨by simp [h1], fun x hx => ?_⟩
      rcases List.mem_cons.1 hx with rfl | hx
      · simp at hb; omega
      · exact h2 x hx
    · rintro ⟨h1, h2⟩
      cases l with
      | nil => simp at h1
      | cons b l =>
        refine ⟨b, ?_, l, ⟨by simpa using h1, fun x hx => h2 x (by simp [hx])⟩, rfl⟩
        have := h2 b (by simp)
        simp; omega

theorem energy_eq {csp : Dict (List Nm) (Arr ℝ)} (hcsp : csp.keys.Nodup) {l : List Nat} {x : Nm → Nat} (h : ∀ c ∈ csp.keys, ∀ q ∈ c, tupleAt l q = some (x q)) :
    energy csp l = some (costOf csp.keys (cspCost csp) x) := by
  unfold energy
  rw [optMapM (g := fun p => p.2.get (p.1.map x)) fun p hp => by
    rw [optMapM fun q hq => h p.1 (List.mem_map_of_mem hp) q hq]
    rfl]
  rw [Option.map_some, costOf, Dict.keys, List.map_map]
  congr 2
  refine List.map_congr_left fun p hp => ?_
  simp only [Function.comp, cspCost]
  rw [Dict.get?_of_mem hcsp (show (p.1, p.2) ∈ csp from hp)]
  rfl

/-- `optimum` finds the least energy of all assignments, and no angles give a value of `query` below it.  The variables are `0 … n-1`. -/
theorem c61_optimum {τ : Type} [HasShape τ] {perm : List Nm → List Nm} (hp : ∀ l, (perm l).Perm l) {hole : τ} (hh : HasShape.shape hole = none)
    {csp : Dict (List Nm) (Arr ℝ)} (hcsp : csp.keys.Nodup) {clauses : List (List Nm)} (hcl : clauses.Perm csp.keys) {n : Nat}
    (hvar : ∀ q, (∃ c ∈ csp.keys, q ∈ c) ↔ ∃ k < n, q = Nm.int (k : Nat)) {L : Nat} (hL : 0 < L) {params : List ℝ} (hpar : params.length = 2 * L) :
    ∃ e l r, optimum csp = some (e, l) ∧ l.length = n ∧ (∀ b ∈ l, b < 2) ∧ energy csp l = some e ∧
      (∀ l', l'.length = n → (∀ b ∈ l', b < 2) → ∃ e', energy csp l' = some e' ∧ e ≤ e') ∧
      query perm hole csp L params clauses = .ok ((r : ℝ) : ℂ) ∧ e ≤ r := by
  have hn : (cspVars csp.keys).length = n := by
    have : (cspVars csp.keys).Perm ((List.range n).map fun k : Nat => Nm.int (k : Nat)) := by
      refine (List.perm_ext_iff_of_nodup (List.nodup_dedup _) (List.nodup_range.map fun a b h => by simpa using h)).2 fun q => ?_
      show q ∈ csp.keys.flatten.dedup ↔ _
      rw [List.mem_dedup, List.mem_flatten, hvar]
      simp only [List.mem_map, List.mem_range]
      exact ⟨fun ⟨k, h1, h2⟩ => ⟨k, h1, h2.symm⟩, fun ⟨k, h1, h2⟩ => ⟨k, h1, h2.symm⟩⟩
    rw [this.length_eq]; simp
  have hat : ∀ l : List Nat, l.length = n → energy csp l = some (costOf csp.keys (cspCost csp) fun q => (tupleAt l q).getD 0) := by
    intro l hl
    refine energy_eq hcsp fun c hc q hq => ?_
    obtain ⟨k, hk, rfl⟩ := (hvar q).1 ⟨c, hc, hq⟩
    have : tupleAt l (Nm.int (k : Nat)) = l[k]? := by simp [tupleAt]
    rw [this, List.getElem?_eq_getElem (by omega)]
    rfl
  set r := (allTuples n).map fun l => (costOf csp.keys (cspCost csp) fun q => (tupleAt l q).getD 0, l) with hr
  have h1 : ((allTuples n).mapM fun l => (energy csp l).map fun e => (e, l)) = some r := optMapM fun l hl => by rw [hat l (mem_allTuples.1 hl).1]; rfl
  have hne : r ≠ [] := by
    intro hc
    have : (List.replicate n 0) ∈ allTuples n := mem_allTuples.2 ⟨by simp, by simp⟩
    rw [hr, List.map_eq_nil_iff] at hc
    rw [hc] at this
    simp at this
  cases hm : r.argmin Prod.fst with
  | none => exact absurd (List.argmin_eq_none.1 hm) hne
  | some p =>
    obtain ⟨e, l⟩ := p
    have hmem := List.argmin_mem hm
    rw [hr, List.mem_map] at hmem
    obtain ⟨l0, hl0, hc⟩ := hmem
    obtain ⟨rfl, rfl⟩ := Prod.mk.inj hc
    obtain ⟨h2, h3⟩ := mem_allTuples.1 hl0
    have hmin : ∀ l', l'.length = n → (∀ b ∈ l', b < 2) →
        costOf csp.keys (cspCost csp) (fun q => (tupleAt l0 q).getD 0) ≤ costOf csp.keys (cspCost csp) fun q => (tupleAt l' q).getD 0 := fun l' h4 h5 =>
      List.le_of_mem_argmin (f := Prod.fst) (a := (costOf csp.keys (cspCost csp) (fun q => (tupleAt l' q).getD 0), l')) (by
        rw [hr]; exact List.mem_map.2 ⟨l', mem_allTuples.2 ⟨h4, h5⟩, rfl⟩) hm
    have hang := angles_of hpar
    have hsub : ∀ c ∈ csp.keys, ∀ q ∈ c, q ∈ cspVars csp.keys := fun c hc q hq => List.mem_dedup.2 (List.mem_flatten.2 ⟨c, hc, hq⟩)
    refine ⟨_, l0, _, ?_, h2, h3, hat l0 h2, fun l' h4 h5 => ⟨_, hat l' h4, hmin l' h4 h5⟩,
      c61_query hp hh hcsp hcl (List.nodup_dedup _) hsub hL hang, c61_between (List.nodup_dedup _) hsub _ _ _ L fun x hx => ?_⟩
    · unfold optimum
      rw [hn, h1]
      exact hm
    · refine (hmin ((List.range n).map fun k : Nat => x (Nm.int (k : Nat))) (by simp) fun b hb => ?_).trans (le_of_eq ?_)
      · obtain ⟨k, hk, rfl⟩ := List.mem_map.1 hb
        obtain ⟨c, hc, hq⟩ := (hvar (Nm.int (k : Nat))).2 ⟨k, List.mem_range.1 hk, rfl⟩
        exact hx _ (hsub c hc _ hq)
      · unfold costOf
        congr 1
        refine List.map_congr_left fun c hc => ?_
        congr 1
        refine List.map_congr_left fun q hq => ?_
        obtain ⟨k, hk, rfl⟩ := (hvar q).1 ⟨c, hc, hq⟩
        simp [tupleAt, hk]

/-! ## Concrete cases -/

/-- `Tensor(None)`. -/
inductive NoData where
  | none
  deriving DecidableEq

instance : HasShape NoData := ⟨fun _ => Option.none⟩

/-- Two clauses on three variables. -/
noncomputable def exCsp : Dict (List Nm) (Arr ℝ) :=
  [([.int 0, .int 1], ⟨[2, 2], fun idx => if idx = [1, 1] then 3 else 0⟩), ([.int 1, .int 2], ⟨[2, 2], fun idx => if idx = [0, 1] then -1 else 2⟩)]

theorem exCsp_keys : exCsp.keys = [[.int 0, .int 1], [.int 1, .int 2]] := rfl

theorem exCsp_nodup : exCsp.keys.Nodup := by rw [exCsp_keys]; decide

theorem exCsp_vars (q : Nm) : (∃ c ∈ exCsp.keys, q ∈ c) ↔ ∃ k < 3, q = Nm.int (k : Nat) := by
  rw [exCsp_keys]
  simp only [List.mem_cons, List.not_mem_nil, or_false, exists_eq_or_imp, exists_eq_left]
  constructor
  · rintro ((h | h) | (h | h))
    · exact ⟨0, by omega, h⟩
    · exact ⟨1, by omega, h⟩
    · exact ⟨1, by omega, h⟩
    · exact ⟨2, by omega, h⟩
  · rintro ⟨k, hk, rfl⟩
    have : k = 0 ∨ k = 1 ∨ k = 2 := by omega
    rcases this with rfl | rfl | rfl <;> simp

/-- The hypotheses of `c61_optimum`, `c61_query` and `c61_data` are met: two layers of the instance above, sets iterated backwards. -/
example : ∃ e l r, optimum exCsp = some (e, l) ∧ l.length = 3 ∧ query List.reverse NoData.none exCsp 2 [1, 2, 3, 4] exCsp.keys = .ok ((r : ℝ) : ℂ) ∧ e ≤ r := by
  obtain ⟨e, l, r, h1, h2, _, _, _, h6, h7⟩ := c61_optimum (perm := List.reverse) (fun l => List.reverse_perm l) (hole := NoData.none) rfl exCsp_nodup (List.Perm.refl _) exCsp_vars
    (L := 2) (by omega) (params := [1, 2, 3, 4]) rfl
  exact ⟨e, l, r, h1, h2, h6, h7⟩

example : checkInstance exCsp = true ∧ Angles 2 [1, 2, 3, 4] (fun i => [1, 2, 3, 4].getD (2 - i) 0) (fun i => [1, 2, 3, 4].getD (4 - i) 0) := by
  refine ⟨?_, angles_of rfl⟩
  simp [checkInstance, exCsp]

/-- The cone of one layer of the first of two clauses holds all three qubits; with one more clause beyond it, the last qubit is outside. -/
example : (clauseNet id NoData.none [[.int 0, .int 1], [.int 1, .int 2], [.int 2, .int 3]] 1 [.int 0, .int 1]).toOption.map (fun p => (p.2, p.1.nodes.keys.length, p.1.edges.keys.length)) =
    some (3, 9, 7) := by decide +kernel

/-- `preprocess(clauses=...)` with some of the clauses: the cone contains the phases of other clauses, and these nodes never get data. -/
theorem c61_subset_violated : ∃ (tn : TN NoData) (n : Nat), clauseNet id NoData.none exCsp.keys 1 [.int 0, .int 1] = .ok (tn, n) ∧
    ∃ nm ∈ tn.nodes.keys, ∀ params m, clauseData 1 params exCsp [[.int 0, .int 1]] m n [.int 0, .int 1] nm = none := by
  rw [exCsp_keys]
  have h : (clauseNet id NoData.none [[.int 0, .int 1], [.int 1, .int 2]] 1 [.int 0, .int 1]).toOption.map
      (fun p => decide (pt 2 (Nm.ofList [.int 1, .int 2]) ∈ p.1.nodes.keys)) = some true := by decide +kernel
  rw [Option.map_eq_some_iff] at h
  obtain ⟨⟨tn, n⟩, h1, h2⟩ := h
  have h1 : clauseNet id NoData.none [[.int 0, .int 1], [.int 1, .int 2]] 1 [.int 0, .int 1] = .ok (tn, n) := by
    revert h1
    cases clauseNet id NoData.none [[.int 0, .int 1], [.int 1, .int 2]] 1 [.int 0, .int 1] with
    | error e => intro h; cases h
    | ok p => intro h; cases h; rfl
  refine ⟨tn, n, h1, _, by simpa using h2, fun params m => ?_⟩
  have := nodeData_phase (rotData 1 params) (phaseData 1 params exCsp [[.int 0, .int 1]]) (obsData exCsp m n [.int 0, .int 1]) 0 [.int 1, .int 2]
  simp only [Nat.cast_zero, mul_zero, zero_add] at this
  rw [clauseData, this]
  simp [phaseData]

/-- `energy` looks variables up by position: with the variables 1 and 2 it raises for every assignment `optimum` tries. -/
theorem c61_vars_violated (C : Arr ℝ) : (∀ l : List Nat, l.length = 2 → energy [([.int 1, .int 2], C)] l = none) ∧ optimum [([.int 1, .int 2], C)] = none := by
  have h : ∀ l : List Nat, l.length = 2 → energy [([.int 1, .int 2], C)] l = none := by
    intro l hl
    have h1 : tupleAt l (.int 1) = some l[1] := by simp [tupleAt]
    have h2 : tupleAt l (.int 2) = none := by simp [tupleAt, hl]
    unfold energy
    simp [List.mapM_cons, h1, h2]
  refine ⟨h, ?_⟩
  unfold optimum
  have hv : (cspVars (Dict.keys [([Nm.int 1, Nm.int 2], C)])).length = 2 := by
    show (cspVars [[Nm.int 1, Nm.int 2]]).length = 2
    decide
  rw [hv]
  simp [allTuples, List.mapM_cons, h]

end Verif
