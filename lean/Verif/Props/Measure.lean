import Verif.Lemmas.Collapse
/-!
# C53 Measuring a qubit: probability, state afterwards, collapse
-/

set_option linter.unusedSectionVars false

namespace Verif

namespace Oper

section Semiring

variable {R : Type} [CommSemiring R] [StarRing R] {ctr : TVal R → Except Err (Arr R)} {G : TN.Glue} {k n K N : Nat} {c : Circ (Oper R)}

/-- **C53**, the probability: for a circuit that prepares a state and whose qubits are named by their positions, the
number `measure` calls `prob_1` is the (real part of the) sum of the diagonal entries of the density matrix at which the
qubit is 1. -/
theorem c53_prob_partial (hctr : Evaluates ctr) (hG : G.Sound) (h : Prepares ctr k (n + 1) c) (hK : n + 2 + k ≤ K) (hN : qubitsOf c = rangeQubits 0 N)
    (re : R → R) {q : Int} (hq : q ∈ circOuts (shapes ctr (n + 1)) c) :
    prob1 ctr G K (n + 1) re c q = .ok (re (probOf (circOuts (shapes ctr (n + 1)) c) (rho ctr (n + 1) c) q 1)) := by
  obtain ⟨c', h1, h2, h3, h4⟩ := h.prob hN hq
  obtain ⟨s, d, a, k1, k2, k3, k4, k5⟩ := density_contract hctr hG h2.built h2.whole hK
  have k1 : Circ.shape (shapes ctr (n + 1)) c' = .ok s := k1
  have hl : 2 * ((outPlaces s).length + (inPlaces s).length) = 0 := by
    rw [Circ.outs_length h2.fit k1, Circ.ins_length h2.fit k1, h3, h2.noIns]; rfl
  rw [hl] at k4 k5
  have e : a.get [] = probOf (circOuts (shapes ctr (n + 1)) c) (rho ctr (n + 1) c) q 1 := by
    have := h4 fun _ => 0
    rw [h.prob_sum hq (by omega)] at this
    rw [← this, k5 [] ⟨rfl, by simp⟩]
    unfold rho
    rw [h3]; rfl
  unfold prob1
  have h1 : probCirc (iface ctr (n + 1)).shape c q = .ok c' := h1
  rw [h1]
  show (match density ctr G K (n + 2) (.circ c') with
    | .error e => Except.error e
    | .ok d =>
      match ctr d with
      | .error e => .error e
      | .ok a => if a.shape = [] then .ok (re (a.get [])) else .error .type) = _
  rw [k2]
  show (match ctr d with
      | .error e => Except.error e
      | .ok a => if a.shape = [] then .ok (re (a.get [])) else .error .type) = _
  rw [k3]
  show (if a.shape = [] then Except.ok (re (a.get [])) else Except.error Err.type) = _
  rw [if_pos (show a.shape = [] from k4), e]

/-- **C53**, the state afterwards: the circuit that `measure` builds for the outcome `b` prepares the density matrix
with the entries at other values of the qubit removed, times `x * star x`, `x` being the scalar appended; with
`remove_qubit` the qubit is gone. -/
theorem c53_post (h : Prepares ctr k (n + 1) c) {q : Int} (hq : q ∈ circOuts (shapes ctr (n + 1)) c) {b : Nat} (hb : b < 2) (x : R)
    (remove : Bool) : ∃ c', postCirc (shapes ctr (n + 1)) c q b x remove = .ok c' ∧ Prepares ctr k (n + 1) c' ∧
      circOuts (shapes ctr (n + 1)) c' =
        (if remove then (circOuts (shapes ctr (n + 1)) c).filter (· ∉ [q]) else circOuts (shapes ctr (n + 1)) c) ∧
      qubitsOf c' = qubitsOf c ∧
      ∀ w w', rho ctr (n + 1) c' w w' = x * star x *
        (if remove then condition q b (rho ctr (n + 1) c) w w' else project q b (rho ctr (n + 1) c) w w') :=
  h.post hq hb x remove

/-- **C53**, `collapse`: the circuit is replaced by a single state with the same density matrix on the same qubits, if
the qubits of the circuit are named by their positions. -/
theorem c53_collapse_partial (hctr : Evaluates ctr) (hG : G.Sound) (h : Prepares ctr k (n + 1) c) (hK : n + 2 + k ≤ K)
    (hN : qubitsOf c = rangeQubits 0 N) : ∃ c', collapse ctr G K (n + 1) c = .ok c' ∧ Prepares ctr k (n + 1) c' ∧ c'.length = 1 ∧
      circOuts (shapes ctr (n + 1)) c' = circOuts (shapes ctr (n + 1)) c ∧ qubitsOf c' = circOuts (shapes ctr (n + 1)) c ∧
      ∀ w w', Good w → Good w' → rho ctr (n + 1) c' w w' = rho ctr (n + 1) c w w' := by
  obtain ⟨s, c', h1, h2, h3, h4, h5, h6, h7⟩ := h.collapse_spec hctr hG hK
  have e := outPlaces_named h.fit h1 hN
  rw [e] at h5 h6 h7
  exact ⟨c', h2, h3, h4, h5, h6, h7⟩

/-- `collapse` of a circuit with inputs raises a `ValueError`. -/
theorem c53_collapse_inputs {s : List (List Letter)} (hs : Circ.shape (shapes ctr n) c = .ok s) (hf : Fitting (shapes ctr n) c)
    (hi : circIns (shapes ctr n) c ≠ []) : collapse ctr G K n c = .error .value := by
  have hne : inPlaces s ≠ [] := fun e => hi (List.length_eq_zero_iff.1 (by rw [← Circ.ins_length hf hs, e]; rfl))
  unfold collapse
  have hs : Circ.shape (iface ctr n).shape c = .ok s := hs
  rw [hs]
  simp only [indicesWith_startsIn, ne_eq, hne, not_false_eq_true, if_true]

theorem trace_split {Q : List Int} {q : Int} (ρ : (Int → Nat) → (Int → Nat) → R) (hq : q ∈ Q) :
    traceOf Q ρ = probOf Q ρ q 0 + probOf Q ρ q 1 := by
  unfold traceOf probOf
  rw [← sumOver_add]
  refine sumOver_congr_reach fun x hx => ?_
  have := Finset.mem_range.1 (hx.2 q hq)
  have : x q = 0 ∨ x q = 1 := by omega
  rcases this with e | e <;> simp [e]

theorem trace_project (Q : List Int) (q : Int) (b : Nat) (ρ : (Int → Nat) → (Int → Nat) → R) : traceOf Q (project q b ρ) = probOf Q ρ q b := by
  unfold traceOf probOf project
  exact sumOver_congr fun x => if_congr (and_self_iff) rfl rfl

theorem prob_project (Q : List Int) (q : Int) (b : Nat) (ρ : (Int → Nat) → (Int → Nat) → R) : probOf Q (project q b ρ) q b = probOf Q ρ q b := by
  unfold probOf project
  refine sumOver_congr fun x => ?_
  by_cases e : x q = b <;> simp [e]

theorem traceOf_mul (Q : List Int) (a : R) (ρ : (Int → Nat) → (Int → Nat) → R) : traceOf Q (fun w w' => a * ρ w w') = a * traceOf Q ρ :=
  sumOver_const_mul _ _ _ _ _

theorem traceOf_good {Q : List Int} {ρ σ : (Int → Nat) → (Int → Nat) → R} (h : ∀ w w', Good w → Good w' → ρ w w' = σ w w') :
    traceOf Q ρ = traceOf Q σ :=
  sumOver_congr_reach fun x hx => by
    have : Good x := Good.reach (fun _ => by decide) hx
    exact h x x this this

theorem probOf_good {Q : List Int} {ρ σ : (Int → Nat) → (Int → Nat) → R} (h : ∀ w w', Good w → Good w' → ρ w w' = σ w w') (q : Int) (b : Nat) :
    probOf Q ρ q b = probOf Q σ q b :=
  sumOver_congr_reach fun x hx => by
    have : Good x := Good.reach (fun _ => by decide) hx
    rw [h x x this this]

theorem probOf_mul (Q : List Int) (a : R) (ρ : (Int → Nat) → (Int → Nat) → R) (q : Int) (b : Nat) :
    probOf Q (fun w w' => a * ρ w w') q b = a * probOf Q ρ q b := by
  unfold probOf
  rw [← sumOver_const_mul]
  exact sumOver_congr fun x => by split <;> simp

end Semiring

section Ring

variable {R : Type} [CommRing R] [StarRing R] {ctr : TVal R → Except Err (Arr R)} {G : TN.Glue} {k n K N : Nat} {c : Circ (Oper R)}
  {re isq : R → R} {coin : R → Except Err Bool} {q : Int} {b remove coll : Bool}

/-- **C53.**  For every circuit that prepares a state and has its qubits named by their positions, and every output
qubit: `measure` draws the outcome with `prob_1`, the probability of 1 in the state, and returns a circuit that prepares
the conditional state of that outcome, on the same qubits without the measured one if it is to be removed, times the
square of the normalisation. -/
theorem c53_measure_partial (hctr : Evaluates ctr) (hG : G.Sound) (h : Prepares ctr k (n + 1) c) (hK : n + 2 + k ≤ K) (hN : qubitsOf c = rangeQubits 0 N)
    (hq : q ∈ circOuts (shapes ctr (n + 1)) c)
    (hb : coin (re (probOf (circOuts (shapes ctr (n + 1)) c) (rho ctr (n + 1) c) q 1)) = .ok b) :
    ∃ c', measure ctr G K (n + 1) re isq coin c q remove coll = .ok (b, c') ∧ Prepares ctr k (n + 1) c' ∧ (coll → c'.length = 1) ∧
      circOuts (shapes ctr (n + 1)) c' =
        (if remove then (circOuts (shapes ctr (n + 1)) c).filter (· ∉ [q]) else circOuts (shapes ctr (n + 1)) c) ∧
      qubitsOf c' = (if coll then circOuts (shapes ctr (n + 1)) c' else qubitsOf c) ∧
      let p := re (probOf (circOuts (shapes ctr (n + 1)) c) (rho ctr (n + 1) c) q 1)
      let x := isq (if b then p else 1 - p)
      ∀ w w', Good w → Good w' → rho ctr (n + 1) c' w w' = x * star x *
        (if remove then condition q (if b then 1 else 0) (rho ctr (n + 1) c) w w' else project q (if b then 1 else 0) (rho ctr (n + 1) c) w w') := by
  have hp := c53_prob_partial hctr hG h hK hN re hq
  obtain ⟨c1, h1, h2, h3, h4, h5⟩ := h.post hq (b := if b then 1 else 0) (by split <;> omega)
    (isq (if b then re (probOf (circOuts (shapes ctr (n + 1)) c) (rho ctr (n + 1) c) q 1)
      else 1 - re (probOf (circOuts (shapes ctr (n + 1)) c) (rho ctr (n + 1) c) q 1))) remove
  have h1 : postCirc (iface ctr (n + 1)).shape c q (if b then 1 else 0) (isq (if b then re (probOf (circOuts (shapes ctr (n + 1)) c) (rho ctr (n + 1) c) q 1)
      else 1 - re (probOf (circOuts (shapes ctr (n + 1)) c) (rho ctr (n + 1) c) q 1))) remove = .ok c1 := h1
  have e : measure ctr G K (n + 1) re isq coin c q remove coll =
      if coll then (collapse ctr G K (n + 1) c1).map fun c'' => (b, c'') else .ok (b, c1) := by
    unfold measure
    rw [hp]
    simp only [hb, h1]
  rw [e]
  cases coll with
  | false => exact ⟨c1, rfl, h2, (fun h => by cases h), h3, h4, fun w w' _ _ => h5 w w'⟩
  | true =>
    obtain ⟨c2, k1, k2, k3, k4, k5, k6⟩ := c53_collapse_partial hctr hG h2 hK (h4.trans hN)
    refine ⟨c2, by rw [k1]; rfl, k2, fun _ => k3, k4.trans h3, ?_, fun w w' hw hw' => ?_⟩
    · rw [if_pos rfl, k5, k4]
    · rw [k6 w w' hw hw', h5]

/-- **C53**, normalisation: if the state has trace 1, its probabilities are real and `isq` inverts the square root of
the probability of the outcome, then the state afterwards has trace 1; if the qubit is kept, the same outcome now has
probability 1. -/
theorem c53_normalised_partial (hctr : Evaluates ctr) (hG : G.Sound) (h : Prepares ctr k (n + 1) c) (hK : n + 2 + k ≤ K) (hN : qubitsOf c = rangeQubits 0 N)
    (hq : q ∈ circOuts (shapes ctr (n + 1)) c) (htr : traceOf (circOuts (shapes ctr (n + 1)) c) (rho ctr (n + 1) c) = 1)
    (hre : re (probOf (circOuts (shapes ctr (n + 1)) c) (rho ctr (n + 1) c) q 1) = probOf (circOuts (shapes ctr (n + 1)) c) (rho ctr (n + 1) c) q 1)
    (hisq : ∀ p, p = probOf (circOuts (shapes ctr (n + 1)) c) (rho ctr (n + 1) c) q (if b then 1 else 0) → isq p * star (isq p) * p = 1)
    (hb : coin (re (probOf (circOuts (shapes ctr (n + 1)) c) (rho ctr (n + 1) c) q 1)) = .ok b) :
    ∃ c', measure ctr G K (n + 1) re isq coin c q remove coll = .ok (b, c') ∧
      traceOf (circOuts (shapes ctr (n + 1)) c') (rho ctr (n + 1) c') = 1 ∧
      (remove = false → probOf (circOuts (shapes ctr (n + 1)) c') (rho ctr (n + 1) c') q (if b then 1 else 0) = 1) := by
  obtain ⟨c', h1, h2, -, h4, -, h6⟩ := c53_measure_partial (remove := remove) (coll := coll) (isq := isq) hctr hG h hK hN hq hb
  have hx : (if b then re (probOf (circOuts (shapes ctr (n + 1)) c) (rho ctr (n + 1) c) q 1)
      else 1 - re (probOf (circOuts (shapes ctr (n + 1)) c) (rho ctr (n + 1) c) q 1)) =
      probOf (circOuts (shapes ctr (n + 1)) c) (rho ctr (n + 1) c) q (if b then 1 else 0) := by
    rw [hre]
    cases b with
    | true => rfl
    | false =>
      rw [trace_split _ hq] at htr
      simp only [Bool.false_eq_true, if_false]
      rw [← htr]; ring
  dsimp only at h6
  rw [hx] at h6
  have h7 := hisq _ rfl
  refine ⟨c', h1, ?_, fun hr => ?_⟩
  · rw [traceOf_good h6, traceOf_mul]
    rw [← h7]
    congr 1
    cases remove with
    | false =>
      simp only [Bool.false_eq_true, if_false] at h4 ⊢
      rw [h4, ← trace_project]
    | true =>
      simp only [if_true] at h4 ⊢
      rw [h4, ← h.prob_sum hq (by split <;> omega) fun _ => 0]; rfl
  · subst hr
    simp only [Bool.false_eq_true, if_false] at h4 h6
    rw [probOf_good h6, probOf_mul, h4, prob_project, h7]

theorem outPlaces_idx {sh : Circ.ShapeFn (Oper R)} (hf : Fitting sh c) {s : List (List Letter)} (hs : c.shape sh = .ok s) :
    outPlaces s = (List.range (qubitsOf c).length).filter fun k => (qubitsOf c)[k]?.getD 0 ∈ circOuts sh c := by
  have hs' := Circ.shape_exact hf hs
  unfold outPlaces places
  have hl : s.length = (qubitsOf c).length := Circ.shape_length hf hs
  rw [hl]
  refine List.filter_congr fun k hk => decide_eq_decide.2 ?_
  rw [hs', List.getElem?_map, List.getElem?_eq_getElem (List.mem_range.1 hk), Circ.mem_circOuts]
  exact isOut_endsWord _

/-- C53 fails if the qubits are not named by their positions: `measure` takes the positions of the outputs for their
names (circuit.py:883-885, :849-857).  A circuit on the qubits 0, 1, 2 whose qubit 0 was measured and removed has the
qubits 1 and 2; measuring qubit 1 next fails, since the other output, at position 1, is not traced out. -/
theorem c53_again_violated (hctr : Evaluates ctr) (hG : G.Sound) (h : Prepares ctr k (n + 1) c) (hK : n + 2 + k ≤ K)
    (hN : qubitsOf c = [0, 1, 2]) (ho : circOuts (shapes ctr (n + 1)) c = [0, 1, 2])
    (hb : coin (re (probOf [0, 1, 2] (rho ctr (n + 1) c) 0 1)) = .ok b) :
    ∃ c', measure ctr G K (n + 1) re isq coin c 0 true true = .ok (b, c') ∧ circOuts (shapes ctr (n + 1)) c' = [1, 2] ∧
      measure ctr G K (n + 1) re isq coin c' 1 remove coll = .error .type := by
  obtain ⟨c', h1, h2, -, h4, h5, -⟩ := c53_measure_partial (N := 3) (remove := true) (coll := true) (isq := isq) hctr hG h hK (hN.trans rfl)
    (q := 0) (by rw [ho]; simp) (by rw [ho]; exact hb)
  have h4 : circOuts (shapes ctr (n + 1)) c' = [1, 2] := h4.trans (by rw [if_pos rfl, ho]; rfl)
  have h5 : qubitsOf c' = [1, 2] := h5.trans (by rw [if_pos rfl, h4])
  refine ⟨c', h1, h4, ?_⟩
  obtain ⟨c2, k1, k2, k3, k4, k5⟩ := h2.meas (q := 1) (by rw [h4]; simp) (b := 1) (by omega)
  have k4 : circOuts (shapes ctr (n + 1)) c2 = [2] := by rw [k4, h4]; rfl
  obtain ⟨s, d, a, e1, e2, e3, e4, e5⟩ := density_contract hctr hG k2.built k2.whole hK
  have e1 : Circ.shape (shapes ctr (n + 1)) c2 = .ok s := e1
  have hop : outPlaces s = [1] := by
    rw [outPlaces_idx k2.fit e1, k5, h5, k4]; rfl
  have hip : inPlaces s = [] := List.length_eq_zero_iff.1 (by rw [Circ.ins_length k2.fit e1, k2.noIns]; rfl)
  rw [hop, hip] at e4
  have hpc : probCirc (shapes ctr (n + 1)) c' 1 = .ok c2 := by
    unfold probCirc
    rw [h2.copy]
    simp only [k1, e1, indicesWith_endsOut, hop]
    rfl
  have hpc : probCirc (iface ctr (n + 1)).shape c' 1 = .ok c2 := hpc
  have hp : prob1 ctr G K (n + 1) re c' 1 = .error .type := by
    unfold prob1
    rw [hpc]
    have e2 : density ctr G K (n + 1 + 1) (.circ c2) = .ok d := e2
    simp only [e2, e3]
    rw [if_neg]
    rw [e4]; decide
  unfold measure
  rw [hp]

end Ring

/-! ### An example: an entangled pair, a further qubit and noise -/

/-- The state `3/5 |00⟩ + 4/5 |11⟩`. -/
def exPair : PureRec ℚ :=
  { data := .ten (some ⟨[2, 2], fun l => if l = [0, 0] then 3 / 5 else if l = [1, 1] then 4 / 5 else 0⟩), shape := [[.o], [.o]] }

/-- Full dephasing. -/
def exDeph : TVal ℚ :=
  .ten (some ⟨[2, 2, 2, 2], fun l => if l = [0, 0, 0, 0] ∨ l = [1, 1, 1, 1] then 1 else 0⟩)

/-- A circuit on three qubits. -/
def exPrep : Circ (Oper ℚ) :=
  [(.str "p", ⟨.pure exPair none, 0, [0, 1]⟩), (.str "s", ⟨compState 1, 0, [2]⟩), (.str "n", ⟨.imm exDeph [[.i, .o]], 1, [1]⟩)]

theorem exPair_ok : PureOk exPair := by
  refine ⟨by decide, by decide, by rw [exPair, TVal.Whole]; trivial, (fun b k h => by cases h), (fun h => by cases h)⟩

theorem exPrep_ok : Prepares evalAll 0 1 exPrep := by
  refine ⟨?_, ?_, ?_, by decide⟩
  · rw [DensBuilt]
    refine ⟨by decide, ⟨_, rfl⟩, fun p hp => ?_⟩
    simp only [exPrep, List.mem_cons, List.not_mem_nil, or_false] at hp
    rcases hp with rfl | rfl | rfl
    · refine ⟨?_, by decide, _, rfl, rfl⟩
      rw [DensBuilt, Built]
      exact ⟨⟨exPair_ok, fun h => by cases h⟩, TVal.flat_ten _ _⟩
    · exact ⟨dens_state 0 0 (by decide), by decide, _, rfl, rfl⟩
    · refine ⟨?_, by decide, _, rfl, rfl⟩
      rw [DensBuilt]
      rfl
  · rw [WholeData]
    intro p hp
    simp only [exPrep, List.mem_cons, List.not_mem_nil, or_false] at hp
    rcases hp with rfl | rfl | rfl
    · trivial
    · exact whole_state _ _
    · rw [WholeData, exDeph, TVal.Whole]; trivial
  · intro n r h t qs e
    simp only [exPrep, List.mem_cons, List.not_mem_nil, or_false, Prod.mk.injEq] at h
    rcases h with ⟨rfl, -⟩ | ⟨rfl, -⟩ | ⟨rfl, -⟩ <;> cases e

theorem exPrep_outs : circOuts (shapes evalAll 1) exPrep = [0, 1, 2] := by decide
theorem exPrep_qubits : qubitsOf exPrep = [0, 1, 2] := by decide
theorem exPrep_prob : probOf [0, 1, 2] (rho evalAll 1 exPrep) 0 1 = 16 / 25 := by decide +kernel
theorem exPrep_trace : traceOf [0, 1, 2] (rho evalAll 1 exPrep) = 1 := by decide +kernel

/-- The hypotheses of `c53_normalised_partial` (and so those of `c53_measure_partial`, `c53_prob_partial`, `c53_post`, `c53_collapse_partial`) are met: the outcome 1, which has
probability 16/25, is drawn for the qubit 0, which is then removed. -/
example : ∃ c', measure evalAll stdGlue 2 1 id (fun _ => 5 / 4) (fun _ => .ok true) exPrep 0 true true = .ok (true, c') ∧
    traceOf (circOuts (shapes evalAll 1) c') (rho evalAll 1 c') = 1 := by
  obtain ⟨c', h1, h2, -⟩ := c53_normalised_partial (N := 3) (q := 0) (re := id) (isq := fun _ => (5 / 4 : ℚ)) (coin := fun _ => .ok true) (b := true)
    (remove := true) (coll := true) evalAll_evaluates stdGlue_sound exPrep_ok (le_refl 2) (by decide) (by rw [exPrep_outs]; decide)
    (by rw [exPrep_outs]; exact exPrep_trace) rfl
    (fun p hp => by
      rw [exPrep_outs] at hp
      simp only [if_true] at hp
      rw [hp, exPrep_prob]
      decide +kernel) rfl
  exact ⟨c', h1, h2⟩

/-- The hypotheses of `c53_again_violated` are met. -/
example : ∃ c', measure evalAll stdGlue 2 1 id (fun _ => 5 / 4) (fun _ => .ok true) exPrep 0 true true = .ok (true, c') ∧
    measure evalAll stdGlue 2 1 id (fun _ => 5 / 4) (fun _ => .ok true) c' 1 false true = .error .type := by
  obtain ⟨c', h1, -, h3⟩ := c53_again_violated (re := id) (isq := fun _ => (5 / 4 : ℚ)) (coin := fun _ => .ok true) (b := true)
    (remove := false) (coll := true) evalAll_evaluates stdGlue_sound exPrep_ok (le_refl 2) exPrep_qubits exPrep_outs rfl
  exact ⟨c', h1, h3⟩

/-- The hypotheses of `c53_collapse_inputs` are met by a circuit with a single gate. -/
example : collapse evalAll stdGlue 1 1 [(.str "n", ⟨.imm exDeph [[.i, .o]], 1, [1]⟩)] = .error .value :=
  c53_collapse_inputs (s := [[.i, .o]]) rfl (fun p hp => by
    obtain rfl := List.mem_singleton.1 hp
    exact ⟨_, rfl, rfl, by decide⟩) (by decide)

end Oper

end Verif
