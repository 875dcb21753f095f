import Verif.Props.Grcs
/-!
# C73: the gates of the specification, a file, and lines that are not read as gates
-/

namespace Verif

namespace QGate

open Oper

theorem pauli_square : ∀ P ∈ [pauliX, pauliY, pauliW], ∀ a b, a < 2 → b < 2 → ∑ c ∈ Finset.range 2, P a c * P c b = if a = b then 1 else 0 := by
  have hI := Complex.I_mul_I
  have h2 := sqrt_two_mul
  have hn := sqrt_two_ne
  intro P hP a b ha hb
  simp only [List.mem_cons, List.not_mem_nil, or_false] at hP
  rcases hP with rfl | rfl | rfl <;> interval_cases a <;> interval_cases b <;>
    simp [Finset.sum_range_succ, pauliX, pauliY, pauliW]
  all_goals
    field_simp
    rw [pow_two, h2]
    linear_combination -hI

/-- The gates `quarter P` are square roots of the Pauli matrices up to a phase. -/
theorem quarter_square {P : Nat → Nat → ℂ} (hP : ∀ a b, a < 2 → b < 2 → ∑ c ∈ Finset.range 2, P a c * P c b = if a = b then 1 else 0) {a b : Nat} (ha : a < 2)
    (hb : b < 2) : ∑ c ∈ Finset.range 2, quarter P a c * quarter P c b = -Complex.I * P a b := by
  have hI := Complex.I_mul_I
  have h2 := sqrt_two_mul
  have hn := sqrt_two_ne
  have h2' : ((Real.sqrt 2 : ℝ) : ℂ) ^ 2 = 2 := by rw [pow_two, h2]
  have hp := hP a b ha hb
  simp only [Finset.sum_range_succ, Finset.sum_range_zero, zero_add] at hp ⊢
  unfold quarter
  interval_cases a <;> interval_cases b <;> simp at hp ⊢ <;> field_simp <;> rw [h2']
  · linear_combination hp * Complex.I * Complex.I + hI
  · linear_combination hp * Complex.I
  · linear_combination hp * Complex.I
  · linear_combination hp * Complex.I * Complex.I + hI

/-- The gates on one qubit are unitary. -/
theorem unitary_one (g : QGate) (hg : g.qubits.length = 1) {a b : Nat} (ha : a < 2) (hb : b < 2) :
    ∑ c ∈ Finset.range 2, star (g.entry [c, a]) * g.entry [c, b] = if a = b then 1 else 0 := by
  have hI := Complex.I_mul_I
  have hn := sqrt_two_ne
  have h2 : ((Real.sqrt 2 : ℝ) : ℂ) ^ 2 = 2 := by rw [pow_two, sqrt_two_mul]
  have hexp : ∀ x : ℝ, (starRingEnd ℂ) (Complex.exp (Complex.I * x)) * Complex.exp (Complex.I * x) = 1 := fun x => by
    rw [← Complex.exp_conj, ← Complex.exp_add]
    simp
  have hpi := hexp (Real.pi / 4)
  push_cast at hpi
  cases g with
  | cz q r => cases hg
  | iswap q r => cases hg
  | fsim θ φ q r => cases hg
  | h q =>
    interval_cases a <;> interval_cases b <;> simp [Finset.sum_range_succ, entry, Complex.conj_ofReal]
    all_goals
      field_simp
      try rw [h2]
      try norm_num
  | t q => interval_cases a <;> interval_cases b <;> simp [entry, hpi]
  | rz θ q => interval_cases a <;> interval_cases b <;> simp [entry, hexp]
  | sqrtX q =>
    interval_cases a <;> interval_cases b <;> simp [Finset.sum_range_succ, entry, quarter, pauliX, Complex.conj_ofReal]
    all_goals
      field_simp
      try rw [h2]
      try linear_combination -hI
      try linear_combination (0 : ℂ) * hI
  | sqrtY q =>
    interval_cases a <;> interval_cases b <;> simp [Finset.sum_range_succ, entry, quarter, pauliY, Complex.conj_ofReal]
    all_goals
      field_simp
      try rw [h2]
      try norm_num
  | sqrtW q =>
    interval_cases a <;> interval_cases b <;> simp [Finset.sum_range_succ, entry, quarter, pauliX, pauliY, pauliW, Complex.conj_ofReal]
    all_goals
      field_simp
      first
        | ring1
        | linear_combination (Complex.I ^ 2 - 2) * hI + h2 - ((Real.sqrt 2 : ℂ) ^ 2 + 2) * h2

/-- The gates on two qubits are unitary. -/
theorem unitary_two (g : QGate) (hg : g.qubits.length = 2) {a b a' b' : Nat} (ha : a < 2) (hb : b < 2) (ha' : a' < 2) (hb' : b' < 2) :
    ∑ c ∈ Finset.range 2, ∑ d ∈ Finset.range 2, star (g.entry [c, d, a, b]) * g.entry [c, d, a', b'] = if a = a' ∧ b = b' then 1 else 0 := by
  have hI := Complex.I_mul_I
  have hexp : ∀ x : ℝ, (starRingEnd ℂ) (Complex.exp (-(Complex.I * x))) * Complex.exp (-(Complex.I * x)) = 1 := fun x => by
    rw [← Complex.exp_conj, ← Complex.exp_add]
    simp
  cases g with
  | h q => cases hg
  | t q => cases hg
  | rz θ q => cases hg
  | sqrtX q => cases hg
  | sqrtY q => cases hg
  | sqrtW q => cases hg
  | cz q r => interval_cases a <;> interval_cases b <;> interval_cases a' <;> interval_cases b' <;> simp [Finset.sum_range_succ, entry]
  | iswap q r => interval_cases a <;> interval_cases b <;> interval_cases a' <;> interval_cases b' <;> simp [Finset.sum_range_succ, entry]
  | fsim θ φ q r =>
    have hcs := Complex.cos_sq_add_sin_sq (θ : ℂ)
    have hc : (starRingEnd ℂ) (Complex.cos θ) = Complex.cos θ := by rw [← Complex.cos_conj, Complex.conj_ofReal]
    have hs : (starRingEnd ℂ) (Complex.sin θ) = Complex.sin θ := by rw [← Complex.sin_conj, Complex.conj_ofReal]
    interval_cases a <;> interval_cases b <;> interval_cases a' <;> interval_cases b' <;>
      simp [Finset.sum_range_succ, entry, hexp, hc, hs]
    all_goals
      first
        | ring1
        | linear_combination hcs - Complex.sin θ ^ 2 * hI

end QGate

namespace Oper

open Circ

variable {ctr : TVal ℂ → Except Err (Arr ℂ)}

/-- A word that is a number. -/
def numWord (i : Int) : Word := ⟨toString i, some i, some i⟩

/-- A file with two qubits and four layers. -/
noncomputable def fileLines : List (List Word) :=
  [[numWord 0, ⟨"h", none, none⟩, numWord 0], [numWord 0, ⟨"hz_1_2", none, none⟩, numWord 1],
   [numWord 1, ⟨"fs", none, none⟩, numWord 1, numWord 0, ⟨"0.5", none, some 0.5⟩, ⟨"0.25", none, some 0.25⟩],
   [numWord 3, ⟨"is", none, none⟩, numWord 0, numWord 1]]

/-- The gates of the file. -/
noncomputable def fileGates : List (Int × QGate) := [(0, .h 0), (0, .sqrtW 1), (1, .fsim 0.5 0.25 1 0), (3, .iswap 0 1)]

/-- The hypotheses of `c73_state` are met by the file. -/
example : WellFormed 2 fileGates ∧ List.Forall₂ Reads fileLines fileGates := by
  refine ⟨⟨?_, ?_, ?_, ?_⟩, ?_⟩
  · simp [fileGates]
  · simp [fileGates, QGate.qubits]
  · simp [fileGates, QGate.qubits]
  · simp [fileGates, QGate.qubits]
  · unfold fileLines fileGates
    refine .cons ⟨_, _, _, rfl, rfl, rfl, rfl⟩ (.cons ⟨_, _, _, rfl, rfl, rfl, rfl⟩ (.cons ⟨_, _, _, rfl, rfl, rfl, ?_⟩
      (.cons ⟨_, _, _, rfl, rfl, rfl, rfl⟩ .nil)))
    exact ⟨_, _, _, _, rfl, rfl, rfl, rfl, rfl⟩

/-- **C73**, finding: an empty line is an `IndexError`. -/
theorem c73_blank_violated (is : Oper ℂ) : lineOp is [] = .error .index := rfl

/-- **C73**, finding: a line with three or more parameters is ignored, whatever its gate. -/
theorem c73_ignored_violated {sh : ShapeFn (Oper ℂ)} {is : Oper ℂ} {w0 w1 : Word} {rest : List Word} {t : Int} {k : Nat} {target : List Int}
    (h0 : w0.int? = some t) (hk : sizeTable w1.lower = some k) (ht : (rest.take k).mapM Word.int? = some target) (hl : k + 3 ≤ rest.length)
    (lines : List (List Word)) (c : Circ (Oper ℂ)) : grcsLines sh is ((w0 :: w1 :: rest) :: lines) c = grcsLines sh is lines c := by
  have hd : 3 ≤ (rest.drop k).length := by rw [List.length_drop]; omega
  have hp : paramOp is w1.lower (rest.drop k) = .ok none := by
    match rest.drop k, hd with
    | _ :: _ :: _ :: _, _ => rfl
  rw [grcsLines, lineOp]
  simp only [h0, hk, ht, hp]

/-- The lines of the theorem exist. -/
example : (⟨"fs", none, none⟩ : Word).lower = "fs" ∧ sizeTable "fs" = some 2 ∧
    ([numWord 0, numWord 1, numWord 2, numWord 3, numWord 4].take 2).mapM Word.int? = some [0, 1] := ⟨rfl, rfl, rfl⟩

/-- **C73**, finding: the number of parameters decides, not the name: a Hadamard gate with a parameter is loaded as a rotation of the phase, and
so is `fs` with one parameter, on two qubits. -/
theorem c73_name_violated (is : Oper ℂ) (t q : Int) (θ : ℝ) (w : Word) (hw : w.num? = some θ) :
    lineOp is [numWord t, ⟨"h", none, none⟩, numWord q, w] = .ok (some (ofGate (.rz θ q), [q], t)) := by
  simp [lineOp, numWord, sizeTable, paramOp, hw, ofGate]

/-- **C73**, finding: `rz` and `fs` without parameters are a `KeyError`. -/
theorem c73_missing_violated (is : Oper ℂ) (t q : Int) : lineOp is [numWord t, ⟨"rz", none, none⟩, numWord q] = .error .key := by
  simp [lineOp, numWord, sizeTable, paramOp, gateTable]

/-- **C73**, finding: of two gates on the same qubits in the same layer only the second one is kept. -/
theorem c73_repeated_violated {sh : ShapeFn (Oper ℂ)} {c c' : Circ (Oper ℂ)} {a b : Oper ℂ} {qs : List Int} {t : Int} (h : append sh c a qs (some t) = .ok c')
    {s : List (List Letter)} (hb : sh b = .ok s) (hs : s.length = qs.length) : append sh c' b qs (some t) = append sh c b qs (some t) := by
  unfold append at h ⊢
  rw [hb]
  split at h
  · cases h
  · rename_i hq
    rw [if_neg hq, if_neg hq]
    dsimp only
    rw [if_neg (by omega), if_neg (by omega)]
    split at h
    · cases h
    · split at h
      · cases h
      · cases h
        simp [Dict.set_set]

/-- The hypotheses of the theorem are met by two gates on qubit 0 in layer 0. -/
example (n : Nat) : append (shapes ctr (n + 1)) [] hGateOp [0] (some 0) = .ok (timed [(hGateOp, [0], 0)]) ∧ shapes ctr (n + 1) (diagOne tDiag) = .ok [[.c]] :=
  ⟨append_timed (l := []) (x := (hGateOp, [0], 0)) ⟨[[.i, .o]], rfl, rfl, by simp⟩ (by simp [timed, Dict.keys]), rfl⟩

theorem iswap_net : ((openNet [.int 0, .int 1, .int 1, .int 0] none).addNode (some (.int 0)) (.int 0) (some [.int 0, .int 1])
      (.ten (some ⟨[2, 2], fun idx => rowsAt [[1, Complex.I], [Complex.I, Complex.exp (Real.pi * Complex.I / 6)]] (idx.getD 0 0) (idx.getD 1 0)⟩)) false).1 =
    { nodes := [(.int 0, { legs := [.int 0, .int 1], ten := some (.ten (some ⟨[2, 2], fun idx =>
        rowsAt [[1, Complex.I], [Complex.I, Complex.exp (Real.pi * Complex.I / 6)]] (idx.getD 0 0) (idx.getD 1 0)⟩)), frozen := false })],
      edges := [(.int 0, { dim := some 2 }), (.int 1, { dim := some 2 })]
      adj := [(.int 0, .int 0), (.int 0, .int 1)]
      openE := [.int 0, .int 1, .int 1, .int 0] } := by
  rfl

theorem iswap_cz_entry (n : Nat) {a b c d : Nat} (ha : a < 2) (hb : b < 2) : matrix ctr (n + 1) iswapCz [a, b, c, d] =
    if a = d ∧ b = c then rowsAt [[1, Complex.I], [Complex.I, Complex.exp (Real.pi * Complex.I / 6)]] a b else 0 := by
  show (TVal.tot (TVal.ofTN _) [a, b, c, d] : ℂ) = _
  rw [iswap_net]
  unfold TVal.ofTN
  simp only [TVal.tot]
  have hk : Dict.keys ([(Nm.int 0, { dim := some 2 }), (Nm.int 1, { dim := some 2 })] : Dict Nm EdgeRec) = [.int 0, .int 1] := rfl
  rw [hk, sumOver_cons]
  have hd : ∀ e : Nm, e = .int 0 ∨ e = .int 1 → ∀ (ns : Dict Nm (NodeRec (TVal ℂ))) (ad : List (Nm × Nm)) (op : List Nm),
      TN.dom (⟨ns, [(Nm.int 0, { dim := some 2 }), (Nm.int 1, { dim := some 2 })], ad, op, 0⟩ : TN (TVal ℂ)) e = Finset.range 2 := by
    rintro e (rfl | rfl) ns ad op <;> rfl
  simp only [sumOver_cons, sumOver_nil, hd _ (Or.inl rfl), hd _ (Or.inr rfl), Finset.sum_range_succ, Finset.sum_range_zero]
  interval_cases a <;> interval_cases b <;> simp [TVal.totFactors, TVal.totOpt, TVal.tot, prodAt, Factor.at, Function.update, and_comm, rowsAt]

/-- **C73**, finding: `ISWAP_CZ` is declared to be self-adjoint, but it is not: `adjoint` returns the operation itself. -/
theorem c73_iswap_cz_violated (I : OpsIface (Oper ℂ) (TVal ℂ)) (adj : Oper ℂ → Except Err (Oper ℂ)) (n : Nat) :
    adjOf I adj iswapCz = .ok iswapCz ∧ ¬ ConjTransposed (matrix ctr (n + 1) iswapCz) (matrix ctr (n + 1) iswapCz) 2 2 := by
  refine ⟨rfl, fun h => ?_⟩
  have := h [0, 1] [1, 0] rfl rfl (by simp) (by simp)
  simp only [List.cons_append, List.nil_append] at this
  rw [iswap_cz_entry n (by omega) (by omega), iswap_cz_entry n (by omega) (by omega)] at this
  simp [rowsAt] at this
  have h2 := congrArg Complex.im this
  simp at h2
  norm_num at h2

/-- **C73**, finding: `simplify` replaces every operation of layer 2 and of the last but two by the gate `ISWAP_CZ` on two qubits; with a gate on
one qubit there the circuit is not well formed any more. -/
theorem c73_simplify_violated {sh : ShapeFn (Oper ℂ)} (hs : sh iswapCz = .ok [[.i, .o], [.i, .o]]) {c : Circ (Oper ℂ)} {p : Nm × OpRec (Oper ℂ)} (hp : p ∈ c) (ht : p.2.time = 2)
    (hq : p.2.qubits.length = 1) : ¬ Fitting sh (simplifyOps c) := by
  intro h
  obtain ⟨s, h1, h2, -⟩ := h _ (List.mem_map_of_mem hp)
  simp only [ht, true_or, if_true] at h1 h2
  rw [hs] at h1
  cases h1
  rw [hq] at h2
  cases h2

/-- The hypotheses of the theorem are met by a Hadamard gate in layer 2. -/
example (n : Nat) : shapes ctr (n + 1) iswapCz = .ok [[.i, .o], [.i, .o]] ∧
    ∃ p ∈ timed [(hGateOp, [(0 : Int)], (2 : Int))], p.2.time = 2 ∧ p.2.qubits.length = 1 := ⟨rfl, _, List.mem_cons_self, rfl, rfl⟩

end Oper

end Verif
