import Verif.Model.Grcs
import Verif.Spec.Qsim
import Verif.Props.Stabilizer
/-!
# C73: the gates of the circuit loader `GRCS`
-/

namespace Verif

namespace Oper

open Circ

variable {ctr : TVal ℂ → Except Err (Arr ℂ)}

theorem unitaryOne_built (n : Nat) (rows : List (List ℂ)) : Built ctr (n + 1) false (unitaryOne rows) := by
  have hs : ∀ w ∈ [[Letter.i, .o]], PlainWord w := by decide
  unfold unitaryOne
  rw [Built]
  refine ⟨⟨hs, rfl, ?_, fun b k h => (by cases h), fun h => (by cases h)⟩, fun h => by cases h⟩
  rw [TVal.Whole]; trivial

theorem unitaryTwo_built (n : Nat) (rows : List (List ℂ)) : Built ctr (n + 1) false (unitaryTwo rows) := by
  have hs : ∀ w ∈ [[Letter.i, .o], [.i, .o]], PlainWord w := by decide
  unfold unitaryTwo
  rw [Built]
  refine ⟨⟨hs, rfl, ?_, fun b k h => (by cases h), fun h => (by cases h)⟩, fun h => by cases h⟩
  rw [TVal.Whole]; trivial

theorem diagOne_built (n : Nat) (d : List ℂ) : Built ctr (n + 1) false (diagOne d) := by
  have hs : ∀ w ∈ [[Letter.c]], CtrlWord w := fun w hw => Or.inl (by simpa using hw)
  unfold diagOne
  rw [Built]
  refine ⟨⟨hs, rfl, ?_, fun h => (by cases h)⟩, fun h => by cases h⟩
  rw [TVal.Whole]; trivial

theorem diagTwo_built (n : Nat) (d : List ℂ) : Built ctr (n + 1) false (diagTwo d) := by
  have hs : ∀ w ∈ [[Letter.c], [.c]], CtrlWord w := fun w hw => Or.inl (by simpa using hw)
  unfold diagTwo
  rw [Built]
  refine ⟨⟨hs, rfl, ?_, fun h => (by cases h)⟩, fun h => by cases h⟩
  rw [TVal.Whole]; trivial

theorem unitaryOne_entry (n : Nat) (rows : List (List ℂ)) (a b : Nat) : matrix ctr (n + 1) (unitaryOne rows) [a, b] = rowsAt rows a b := by
  show (TVal.tot (.ten (some _)) [a, b] : ℂ) = _
  rw [TVal.tot]
  rfl

theorem unitaryTwo_entry (n : Nat) (rows : List (List ℂ)) (a b c d : Nat) :
    matrix ctr (n + 1) (unitaryTwo rows) [a, b, c, d] = rowsAt rows (2 * a + b) (2 * c + d) := by
  show (TVal.tot (.ten (some _)) [a, b, c, d] : ℂ) = _
  rw [TVal.tot]
  rfl

theorem diagOne_entry (n : Nat) (l : List ℂ) (a b : Nat) : matrix ctr (n + 1) (diagOne l) [a, b] = if a = b then l.getD a 0 else 0 := by
  show blockMat (TVal.tot (.ten (some _))) _ [a, b] = _
  have h1 : outPlaces [[Letter.c]] = [0] := by decide
  have h2 : inPlaces [[Letter.c]] = [0] := by decide
  have h3 : ctrlPlaces [[Letter.c]] = [0] := by decide
  simp only [blockMat, h1, h2, h3, TVal.tot]
  simp [readAt, List.idxOf, List.findIdx, List.findIdx.go]

theorem diagTwo_entry (n : Nat) (l : List ℂ) (a b c d : Nat) :
    matrix ctr (n + 1) (diagTwo l) [a, b, c, d] = if a = c ∧ b = d then l.getD (2 * a + b) 0 else 0 := by
  show blockMat (TVal.tot (.ten (some _))) _ [a, b, c, d] = _
  have h1 : outPlaces [[Letter.c], [.c]] = [0, 1] := by decide
  have h2 : inPlaces [[Letter.c], [.c]] = [0, 1] := by decide
  have h3 : ctrlPlaces [[Letter.c], [.c]] = [0, 1] := by decide
  simp only [blockMat, h1, h2, h3, TVal.tot]
  simp [readAt, List.idxOf, List.findIdx, List.findIdx.go]

theorem swap_net : (openNet [.int 0, .int 1, .int 1, .int 0] (some 2) : TN (TVal ℂ)) =
    { edges := [(.int 0, { dim := some 2 }), (.int 1, { dim := some 2 })], openE := [.int 0, .int 1, .int 1, .int 0] } := by
  rfl

theorem swap_entry (n : Nat) {a b c d : Nat} (ha : a < 2) (hb : b < 2) :
    matrix ctr (n + 1) swapOp [a, b, c, d] = if a = d ∧ b = c then 1 else 0 := by
  show (TVal.tot (TVal.ofTN _) [a, b, c, d] : ℂ) = _
  rw [swap_net]
  unfold TVal.ofTN
  simp only [TVal.tot]
  have hk : Dict.keys ([(Nm.int 0, { dim := some 2 }), (Nm.int 1, { dim := some 2 })] : Dict Nm EdgeRec) = [.int 0, .int 1] := rfl
  rw [hk, sumOver_cons]
  have hd : ∀ e : Nm, e = .int 0 ∨ e = .int 1 →
      TN.dom (⟨[], [(Nm.int 0, { dim := some 2 }), (Nm.int 1, { dim := some 2 })], [], [.int 0, .int 1, .int 1, .int 0], 0⟩ : TN (TVal ℂ)) e =
        Finset.range 2 := by
    rintro e (rfl | rfl) <;> decide +kernel
  simp only [sumOver_cons, sumOver_nil, hd _ (Or.inl rfl), hd _ (Or.inr rfl), Finset.sum_range_succ, Finset.sum_range_zero]
  interval_cases a <;> interval_cases b <;> simp [TVal.totFactors, prodAt, Function.update, and_comm]

theorem swap_built (n : Nat) : Built ctr (n + 1) false swapOp := by
  have hs : ∀ w ∈ [[Letter.i, .o], [.i, .o]], PlainWord w := by decide
  have he := fun a b c d ha hb => @swap_entry ctr n a b c d ha hb
  unfold swapOp at he ⊢
  rw [Built]
  refine ⟨⟨hs, rfl, ?_, fun b k h => (by cases h), fun _ => ⟨rfl, ?_⟩⟩, fun h => by cases h⟩
  · show TVal.Whole (TVal.ofTN _)
    rw [swap_net]
    unfold TVal.ofTN
    rw [TVal.Whole, TVal.WholeNodes]
    trivial
  · intro x y hx hy hxb hyb
    match x, hx with
    | [a, b], _ =>
      match y, hy with
      | [c, d], _ =>
        have ha := hxb a (by simp)
        have hb := hxb b (by simp)
        have hc := hyb c (by simp)
        have hd := hyb d (by simp)
        refine (he a b c d ha hb).trans (Eq.trans ?_ (congrArg star (he c d a b hc hd)).symm)
        interval_cases a <;> interval_cases b <;> interval_cases c <;> interval_cases d <;> simp

/-- The operations of the entry `is` of the table. -/
noncomputable def isOps : List (Oper ℂ × List Int) := [(diagTwo [1, Complex.I, Complex.I, 1], [0, 1]), (swapOp, [0, 1])]

theorem isOps_appendable (n : Nat) : ∀ x ∈ isOps, Appendable (shapes ctr (n + 1)) x := by
  intro x hx
  simp only [isOps, List.mem_cons, List.not_mem_nil, or_false] at hx
  rcases hx with rfl | rfl
  · exact ⟨[[.c], [.c]], rfl, rfl, by simp⟩
  · exact ⟨[[.i, .o], [.i, .o]], rfl, rfl, by simp⟩

theorem isOper_eq (n : Nat) : isOper (shapes ctr (n + 1)) = .ok (.circ (seqFrom 0 isOps)) := by
  have h := c63_append (sh := shapes ctr (n + 1)) isOps (isOps_appendable n)
  unfold isOper
  have : orOper (shapes ctr (n + 1)) (diagTwo [1, Complex.I, Complex.I, 1]) swapOp =
      isOps.foldlM (fun c x => append (shapes ctr (n + 1)) c x.1 x.2) [] := by
    rfl
  rw [this, h]
  rfl

theorem is_ports (n : Nat) (q : Int) : (isOps.flatMap fun x => portsAt (shapeD (shapes ctr (n + 1)) x.1) x.2 q) =
    if q = 0 ∨ q = 1 then [.inp, .out, .inp, .out] else [] := by
  have e1 : portsAt (shapeD (shapes ctr (n + 1)) (diagTwo [1, Complex.I, Complex.I, 1])) [0, 1] q = if q = 0 ∨ q = 1 then [.inp, .out] else [] := by
    show portsAt [[.c], [.c]] [0, 1] q = _
    by_cases h : (0 : Int) = q
    · subst h; simp [portsAt, Letter.ports]
    · by_cases h' : (1 : Int) = q
      · subst h'; simp [portsAt, Letter.ports]
      · simp [portsAt, h, h', Ne.symm h, Ne.symm h']
  have e2 : portsAt (shapeD (shapes ctr (n + 1)) swapOp) [0, 1] q = if q = 0 ∨ q = 1 then [.inp, .out] else [] := by
    show portsAt [[.i, .o], [.i, .o]] [0, 1] q = _
    by_cases h : (0 : Int) = q
    · subst h; simp [portsAt, Letter.ports]
    · by_cases h' : (1 : Int) = q
      · subst h'; simp [portsAt, Letter.ports]
      · simp [portsAt, h, h', Ne.symm h, Ne.symm h']
  simp only [isOps, List.flatMap_cons, List.flatMap_nil, e1, e2]
  split <;> rfl

theorem is_shape (n : Nat) : shapes ctr (n + 2) (.circ (seqFrom 0 isOps)) = .ok [[.i, .o], [.i, .o]] := by
  rfl

theorem is_tensor (hctr : Evaluates ctr) (n : Nat) : Built ctr (n + 2) false (.circ (seqFrom 0 isOps)) ∧
    ∀ a b c d, a < 2 → b < 2 → c < 2 → d < 2 → matrix ctr (n + 2) (.circ (seqFrom 0 isOps)) [a, b, c, d] =
      if a = d ∧ b = c then (if a = b then 1 else Complex.I) else 0 := by
  have hpw : ([0, 1] : List Int).Pairwise (· < ·) := by decide
  have hbuilt : ∀ x ∈ isOps, Built ctr (n + 1) false x.1 := by
    intro x hx
    simp only [isOps, List.mem_cons, List.not_mem_nil, or_false] at hx
    rcases hx with rfl | rfl
    · exact diagTwo_built n _
    · exact swap_built n
  obtain ⟨c, t, h1, h2, h3, h4⟩ := c63_tensor hctr (n := n + 1) (l := isOps) (outQ := [0, 1]) (inQ := [0, 1]) hbuilt (isOps_appendable n)
    (fun q => by rw [is_ports]; split <;> simp [Connectable])
    ⟨hpw, fun q => by rw [is_ports]; by_cases h : q = 0 ∨ q = 1 <;> simp [h]⟩
    ⟨hpw, fun q => by rw [is_ports]; by_cases h : q = 0 ∨ q = 1 <;> simp [h]⟩
  rw [c63_append isOps (isOps_appendable n)] at h1
  cases h1
  refine ⟨h2, fun a b c d ha hb hc hd => ?_⟩
  obtain ⟨s, t', hm, -⟩ := means_built hctr _ _ _ h2
  have ht : t' = t := by have := hm.tensor.symm.trans h3; cases this; rfl
  have hs : s = [[.i, .o], [.i, .o]] := by have := hm.shape.symm.trans (is_shape n); cases this; rfl
  subst ht hs
  rw [← hm.entries [a, b, c, d] ⟨rfl, by simp; omega⟩]
  let u : Int → Nat := fun q => if q = 0 then a else if q = 1 then b else 0
  let v : Int → Nat := fun q => if q = 0 then c else if q = 1 then d else 0
  have hu : Good u := fun q => by simp only [u]; split_ifs <;> omega
  have hv : Good v := fun q => by simp only [v]; split_ifs <;> omega
  refine (h4 u v hu hv).trans ?_
  have i1 : inQubits (shapeD (shapes ctr (n + 1)) (diagTwo [1, Complex.I, Complex.I, 1])) [0, 1] = [0, 1] := rfl
  have o1 : outQubits (shapeD (shapes ctr (n + 1)) (diagTwo [1, Complex.I, Complex.I, 1])) [0, 1] = [0, 1] := rfl
  have i2 : inQubits (shapeD (shapes ctr (n + 1)) swapOp) [0, 1] = [0, 1] := rfl
  have o2 : outQubits (shapeD (shapes ctr (n + 1)) swapOp) [0, 1] = [0, 1] := rfl
  simp only [isOps, List.map_cons, List.map_nil, evolve, Act.apply, i1, o1, i2, o2, List.cons_append, List.nil_append, diagTwo_entry]
  have hu0 : u 0 = a := rfl
  have hu1 : u 1 = b := rfl
  have hv0 : v 0 = c := rfl
  have hv1 : v 1 = d := rfl
  simp only [hu0, hu1, swap_entry n ha hb]
  simp only [sumOver_cons, sumOver_nil, bits, Finset.sum_range_succ, Finset.sum_range_zero, basisState, Function.update_self,
    Function.update_of_ne (show (0 : Int) ≠ 1 by decide), List.forall_mem_cons, hv0, hv1]
  interval_cases a <;> interval_cases b <;> interval_cases c <;> interval_cases d <;> simp

/-- The operation used for a gate. -/
noncomputable def ofGate : QGate → Oper ℂ
  | .h _ => hGateOp
  | .sqrtX _ => unitaryOne xHalfRows
  | .sqrtY _ => unitaryOne yHalfRows
  | .sqrtW _ => unitaryOne wHalfRows
  | .t _ => diagOne tDiag
  | .cz _ _ => czOp
  | .iswap _ _ => .circ (seqFrom 0 isOps)
  | .rz θ _ => rzOp θ
  | .fsim θ φ _ _ => unitaryTwo (fsimRows θ φ)

theorem ofGate_built (hctr : Evaluates ctr) (n : Nat) (g : QGate) : Built ctr (n + 2) false (ofGate g) := by
  cases g with
  | h q => exact hGate_built _
  | sqrtX q => exact unitaryOne_built _ _
  | sqrtY q => exact unitaryOne_built _ _
  | sqrtW q => exact unitaryOne_built _ _
  | t q => exact diagOne_built _ _
  | cz q r => exact cz_built _
  | iswap q r => exact (is_tensor hctr n).1
  | rz θ q => exact diagOne_built _ _
  | fsim θ φ q r => exact unitaryTwo_built _ _

theorem ofGate_shape (n : Nat) (g : QGate) : ∃ s, shapes ctr (n + 2) (ofGate g) = .ok s ∧ s.length = g.qubits.length ∧ Square s := by
  cases g with
  | h q => exact ⟨[[.i, .o]], rfl, rfl, by simp [Square]⟩
  | sqrtX q => exact ⟨[[.i, .o]], rfl, rfl, by simp [Square]⟩
  | sqrtY q => exact ⟨[[.i, .o]], rfl, rfl, by simp [Square]⟩
  | sqrtW q => exact ⟨[[.i, .o]], rfl, rfl, by simp [Square]⟩
  | t q => exact ⟨[[.c]], rfl, rfl, by simp [Square]⟩
  | cz q r => exact ⟨[[.c], [.c]], rfl, rfl, by simp [Square]⟩
  | iswap q r => exact ⟨[[.i, .o], [.i, .o]], is_shape n, rfl, by simp [Square]⟩
  | rz θ q => exact ⟨[[.c]], rfl, rfl, by simp [Square]⟩
  | fsim θ φ q r => exact ⟨[[.i, .o], [.i, .o]], rfl, rfl, by simp [Square]⟩

theorem two_bits {x : List Nat} (h : Bits x 2) : ∃ a b, a < 2 ∧ b < 2 ∧ x = [a, b] := by
  obtain ⟨h1, h2⟩ := h
  match x, h1 with
  | [a, b], _ => exact ⟨a, b, h2 a (by simp), h2 b (by simp), rfl⟩

theorem four_bits {x : List Nat} (h : Bits x 4) : ∃ a b c d, a < 2 ∧ b < 2 ∧ c < 2 ∧ d < 2 ∧ x = [a, b, c, d] := by
  obtain ⟨h1, h2⟩ := h
  match x, h1 with
  | [a, b, c, d], _ => exact ⟨a, b, c, d, h2 a (by simp), h2 b (by simp), h2 c (by simp), h2 d (by simp), rfl⟩

theorem sqrt_half : ((Real.sqrt 0.5 : ℝ) : ℂ) = 1 / (Real.sqrt 2 : ℝ) := by
  rw [show (0.5 : ℝ) = 2⁻¹ by norm_num, Real.sqrt_inv]
  push_cast
  rw [one_div]

theorem sqrt_two_mul : ((Real.sqrt 2 : ℝ) : ℂ) * (Real.sqrt 2 : ℝ) = 2 := by
  rw [← Complex.ofReal_mul, Real.mul_self_sqrt (by norm_num)]
  norm_num

theorem sqrt_two_ne : ((Real.sqrt 2 : ℝ) : ℂ) ≠ 0 := fun h => by
  have := sqrt_two_mul
  rw [h] at this
  simp at this

theorem sqrt_I : (Complex.I : ℂ) ^ (1 / 2 : ℂ) = (1 + Complex.I) / (Real.sqrt 2 : ℝ) := by
  rw [Complex.cpow_def_of_ne_zero Complex.I_ne_zero, Complex.log_I,
    show (Real.pi / 2 * Complex.I * (1 / 2) : ℂ) = ((Real.pi / 4 : ℝ) : ℂ) * Complex.I by push_cast; ring,
    Complex.exp_mul_I, ← Complex.ofReal_cos, ← Complex.ofReal_sin, Real.cos_pi_div_four, Real.sin_pi_div_four]
  rw [eq_div_iff sqrt_two_ne]
  push_cast
  have := sqrt_two_mul
  linear_combination ((1 + Complex.I) / 2) * this

theorem sqrt_neg_I : (-Complex.I : ℂ) ^ (1 / 2 : ℂ) = (1 - Complex.I) / (Real.sqrt 2 : ℝ) := by
  rw [Complex.cpow_def_of_ne_zero (neg_ne_zero.2 Complex.I_ne_zero), Complex.log_neg_I,
    show (-(Real.pi / 2) * Complex.I * (1 / 2) : ℂ) = ((-(Real.pi / 4) : ℝ) : ℂ) * Complex.I by push_cast; ring,
    Complex.exp_mul_I, ← Complex.ofReal_cos, ← Complex.ofReal_sin, Real.cos_neg, Real.sin_neg, Real.cos_pi_div_four, Real.sin_pi_div_four]
  rw [eq_div_iff sqrt_two_ne]
  push_cast
  have := sqrt_two_mul
  linear_combination ((1 - Complex.I) / 2) * this

/-- **C73**, gates: the operations of the tables have the matrices of the literature. -/
theorem c73_gates (hctr : Evaluates ctr) (n : Nat) (g : QGate) {x : List Nat} (hx : Bits x (2 * g.qubits.length)) :
    matrix ctr (n + 2) (ofGate g) x = g.entry x := by
  have hI := Complex.I_mul_I
  have h2 := sqrt_two_mul
  have hn := sqrt_two_ne
  cases g with
  | h q =>
    obtain ⟨a, b, ha, hb, rfl⟩ := two_bits hx
    refine (hGate_entry (n + 1) ha hb).trans ?_
    rw [sqrt_half]
    interval_cases a <;> interval_cases b <;> simp [QGate.entry, neg_div]
  | sqrtX q =>
    obtain ⟨a, b, ha, hb, rfl⟩ := two_bits hx
    refine (unitaryOne_entry (n + 1) _ a b).trans ?_
    interval_cases a <;> interval_cases b <;> simp [QGate.entry, rowsAt, xHalfRows, QGate.quarter, QGate.pauliX]
  | sqrtY q =>
    obtain ⟨a, b, ha, hb, rfl⟩ := two_bits hx
    refine (unitaryOne_entry (n + 1) _ a b).trans ?_
    interval_cases a <;> interval_cases b <;> simp [QGate.entry, rowsAt, yHalfRows, QGate.quarter, QGate.pauliY]
  | sqrtW q =>
    obtain ⟨a, b, ha, hb, rfl⟩ := two_bits hx
    refine (unitaryOne_entry (n + 1) _ a b).trans ?_
    unfold rowsAt wHalfRows
    rw [sqrt_I, sqrt_neg_I]
    interval_cases a <;> interval_cases b <;> simp [QGate.entry, QGate.quarter, QGate.pauliX, QGate.pauliY, QGate.pauliW]
    · field_simp
      linear_combination hI
    · field_simp
      linear_combination hI
  | t q =>
    obtain ⟨a, b, ha, hb, rfl⟩ := two_bits hx
    refine (diagOne_entry (n + 1) _ a b).trans ?_
    interval_cases a <;> interval_cases b <;> simp [QGate.entry, tDiag, mul_div_assoc]
  | rz θ q =>
    obtain ⟨a, b, ha, hb, rfl⟩ := two_bits hx
    refine (diagOne_entry (n + 1) _ a b).trans ?_
    interval_cases a <;> interval_cases b <;> simp [QGate.entry]
  | cz q r =>
    obtain ⟨a, b, c, d, ha, hb, hc, hd, rfl⟩ := four_bits hx
    refine (cz_entry (n + 1) ha hb hc hd).trans ?_
    interval_cases a <;> interval_cases b <;> simp [QGate.entry]
  | iswap q r =>
    obtain ⟨a, b, c, d, ha, hb, hc, hd, rfl⟩ := four_bits hx
    exact (is_tensor hctr n).2 a b c d ha hb hc hd
  | fsim θ φ q r =>
    obtain ⟨a, b, c, d, ha, hb, hc, hd, rfl⟩ := four_bits hx
    refine (unitaryTwo_entry (n + 1) _ a b c d).trans ?_
    have he : Complex.exp (-(Complex.I * φ)) = (Real.cos (-φ) : ℂ) + (Real.sin (-φ) : ℂ) * Complex.I := by
      rw [Complex.ofReal_cos, Complex.ofReal_sin, ← Complex.exp_mul_I]
      congr 1
      push_cast
      ring
    unfold rowsAt fsimRows
    interval_cases a <;> interval_cases b <;> interval_cases c <;> interval_cases d <;> simp [QGate.entry, he, mul_comm]

end Oper

end Verif
