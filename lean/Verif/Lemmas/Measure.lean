import Verif.Model.Measure
import Verif.Lemmas.Later
import Verif.Lemmas.DensWhole
import Verif.Props.Nest
import Verif.Spec.Measure
/-!
# What measurements, states, scalars and traces appended to a circuit do to its density matrix
-/

set_option linter.unusedSectionVars false

namespace Verif

variable {R : Type} [CommSemiring R] [StarRing R]

theorem evolveDens_append : ∀ (l l' : List (Act R)) (ρ : (Int → Nat) → (Int → Nat) → R),
    evolveDens (l ++ l') ρ = evolveDens l' (evolveDens l ρ)
  | [], _, _ => rfl
  | p :: l, l', ρ => evolveDens_append l l' (p.applyDens ρ)

theorem Good.update {w : Int → Nat} (h : Good w) (q : Int) {b : Nat} (hb : b < 2) : Good (Function.update w q b) := fun q' => by
  by_cases e : q' = q
  · subst e; rw [Function.update_self]; exact hb
  · rw [Function.update_of_ne e]; exact h q'

theorem sumOver_one (q : Int) (f : (Int → Nat) → R) (w : Int → Nat) :
    sumOver bits [q] f w = f (Function.update w q 0) + f (Function.update w q 1) := by
  rw [sumOver_cons]
  show ∑ x ∈ Finset.range 2, _ = _
  rw [Finset.sum_range_succ, Finset.sum_range_one]
  rfl

theorem sum_pick (f : Nat → R) {b : Nat} (hb : b < 2) : (if 0 = b then (1 : R) else 0) * f 0 + (if 1 = b then (1 : R) else 0) * f 1 = f b := by
  have : b = 0 ∨ b = 1 := by omega
  rcases this with rfl | rfl <;> simp

namespace Oper

theorem portsAt_one (l : List Letter) (q : Int) : portsAt [l] [q] q = l.flatMap Letter.ports := by
  simp [portsAt]

theorem portsAt_other (l : List Letter) {q q' : Int} (h : q' ≠ q) : portsAt [l] [q] q' = [] :=
  portsAt_nil (by simpa using h)

theorem inQubits_i (q : Int) : inQubits [[.i]] [q] = [q] := by
  simp [inQubits, portsAt_one, Letter.ports]

theorem outQubits_i (q : Int) : outQubits [[.i]] [q] = [] := by
  simp [outQubits, portsAt_one, Letter.ports]

theorem inQubits_o (q : Int) : inQubits [[.o]] [q] = [] := by
  simp [inQubits, portsAt_one, Letter.ports]

theorem outQubits_o (q : Int) : outQubits [[.o]] [q] = [q] := by
  simp [outQubits, portsAt_one, Letter.ports]

theorem pair_basis (b x x' : Nat) : pairMat (TVal.tot (.ten (some (basisArr (R := R) b)))) (([x, x'] : List Nat).length / 2) [x, x'] =
    (if x = b then 1 else 0) * (if x' = b then 1 else 0) := by
  rw [TVal.tot]
  have e : ∀ z : Nat, (basisArr (R := R) b).get [z] = if z = b then 1 else 0 := fun z => by
    unfold basisArr
    exact if_congr (by simp) rfl rfl
  have : pairMat (basisArr (R := R) b).get (([x, x'] : List Nat).length / 2) [x, x'] = (basisArr (R := R) b).get [x] * star ((basisArr (R := R) b).get [x']) := by
    unfold pairMat
    simp
  rw [this, e, e]
  congr 1
  split <;> simp

variable {ctr : TVal R → Except Err (Arr R)}

/-- The action of an operation with the given entries on the density matrix. -/
abbrev actAt (ctr : TVal R → Except Err (Arr R)) (n : Nat) (op : Oper R) (qs : List Int) : Act R :=
  ⟨densMatrix ctr n op, inQubits (shapeD (shapes ctr n) op) qs, outQubits (shapeD (shapes ctr n) op) qs⟩

/-- A measurement with the given outcome. -/
theorem applyDens_meas {n : Nat} {b : Nat} (hb : b < 2) (q : Int) (ρ : (Int → Nat) → (Int → Nat) → R) (w w' : Int → Nat) :
    (actAt ctr (n + 1) (compMeas b) [q]).applyDens ρ w w' = ρ (Function.update w q b) (Function.update w' q b) := by
  show Act.applyDens ⟨fun idx => pairMat (TVal.tot (.ten (some (basisArr b)))) (idx.length / 2) idx, inQubits [[.i]] [q], outQubits [[.i]] [q]⟩ ρ w w' = _
  rw [inQubits_i, outQubits_i]
  unfold Act.applyDens
  simp only [sumOver_one]
  have e := pair_basis (R := R) b
  show pairMat _ (([Function.update w q 0 q, Function.update w' q 0 q] : List Nat).length / 2) [Function.update w q 0 q, Function.update w' q 0 q] * _ +
    pairMat _ (([Function.update w q 0 q, Function.update w' q 1 q] : List Nat).length / 2) [Function.update w q 0 q, Function.update w' q 1 q] * _ +
    (pairMat _ (([Function.update w q 1 q, Function.update w' q 0 q] : List Nat).length / 2) [Function.update w q 1 q, Function.update w' q 0 q] * _ +
    pairMat _ (([Function.update w q 1 q, Function.update w' q 1 q] : List Nat).length / 2) [Function.update w q 1 q, Function.update w' q 1 q] * _) = _
  rw [e, e, e, e]
  simp only [Function.update_self]
  have : b = 0 ∨ b = 1 := by omega
  rcases this with rfl | rfl <;> simp

/-- A state in the given basis value. -/
theorem applyDens_state {n : Nat} {b : Nat} (q : Int) (ρ : (Int → Nat) → (Int → Nat) → R) (w w' : Int → Nat) :
    (actAt ctr (n + 1) (compState b) [q]).applyDens ρ w w' = if w q = b ∧ w' q = b then ρ w w' else 0 := by
  show Act.applyDens ⟨fun idx => pairMat (TVal.tot (.ten (some (basisArr b)))) (idx.length / 2) idx, inQubits [[.o]] [q], outQubits [[.o]] [q]⟩ ρ w w' = _
  rw [inQubits_o, outQubits_o]
  show pairMat _ (([w q, w' q] : List Nat).length / 2) [w q, w' q] * ρ w w' = _
  rw [pair_basis]
  by_cases h : w q = b <;> by_cases h' : w' q = b <;> simp [h, h']

/-- A scalar. -/
theorem applyDens_scalar {n : Nat} (x : R) (ρ : (Int → Nat) → (Int → Nat) → R) (w w' : Int → Nat) :
    (actAt ctr (n + 1) (scalarOp x) []).applyDens ρ w w' = x * star x * ρ w w' := by
  show pairMat (TVal.tot (.ten (some ⟨[], fun _ => x⟩))) _ _ * ρ w w' = _
  rw [TVal.tot]; rfl

theorem trace_tot : ∀ x x' : Nat, x < 2 → x' < 2 → (TVal.ofTN (traceNet (R := R))).tot [x, x'] = if x = x' then 1 else 0 := by
  intro x x' hx hx'
  rw [TVal.tot_ofTN]
  have e : (traceNet (R := R)).total TVal.tot [x, x'] = sumOver (traceNet (R := R)).dom [.int 0]
      (fun a => if [a (.int 0), a (.int 0)] = [x, x'] then 1 else 0) fun _ => 0 := rfl
  rw [e, sumOver_cons]
  have e2 : (traceNet (R := R)).dom (.int 0) = Finset.range 2 := by
    rfl
  rw [e2, Finset.sum_range_succ, Finset.sum_range_one]
  simp only [sumOver_nil, Function.update_self, List.cons.injEq, and_true]
  have h : x = 0 ∨ x = 1 := by omega
  have h' : x' = 0 ∨ x' = 1 := by omega
  rcases h with rfl | rfl <;> rcases h' with rfl | rfl <;> simp

/-- A trace. -/
theorem applyDens_trace {n : Nat} (q : Int) (ρ : (Int → Nat) → (Int → Nat) → R) (w w' : Int → Nat) :
    (actAt ctr (n + 1) traceOp [q]).applyDens ρ w w' =
      ρ (Function.update w q 0) (Function.update w' q 0) + ρ (Function.update w q 1) (Function.update w' q 1) := by
  show Act.applyDens ⟨TVal.tot (.ofTN traceNet), inQubits [[.i]] [q], outQubits [[.i]] [q]⟩ ρ w w' = _
  rw [inQubits_i, outQubits_i]
  unfold Act.applyDens
  simp only [sumOver_one]
  show TVal.tot _ [Function.update w q 0 q, Function.update w' q 0 q] * _ + TVal.tot _ [Function.update w q 0 q, Function.update w' q 1 q] * _ +
    (TVal.tot _ [Function.update w q 1 q, Function.update w' q 0 q] * _ + TVal.tot _ [Function.update w q 1 q, Function.update w' q 1 q] * _) = _
  simp only [Function.update_self]
  rw [trace_tot 0 0 (by omega) (by omega), trace_tot 0 1 (by omega) (by omega), trace_tot 1 0 (by omega) (by omega), trace_tot 1 1 (by omega) (by omega)]
  simp

/-- All traces together, on the diagonal. -/
theorem evolveDens_traces {n : Nat} : ∀ (Q : List Int) (ρ : (Int → Nat) → (Int → Nat) → R) (u : Int → Nat),
    evolveDens (Q.map fun q => actAt ctr (n + 1) traceOp [q]) ρ u u = sumOver bits Q (fun x => ρ x x) u
  | [], _, _ => rfl
  | q :: Q, ρ, u => by
    rw [List.map_cons, evolveDens, evolveDens_traces Q]
    have h1 : sumOver bits Q (fun x => (actAt ctr (n + 1) traceOp [q]).applyDens ρ x x) u =
        sumOver bits Q (fun x => sumOver bits [q] (fun y => ρ y y) x) u :=
      sumOver_congr fun x => by rw [applyDens_trace, sumOver_one]
    rw [h1, ← sumOver_append]
    exact sumOver_perm (List.perm_append_comm (l₁ := Q) (l₂ := [q])) _ _

/-! ### Circuits that prepare states -/

/-- The density matrix of a circuit without inputs: its entry at the values `w` and `w'` of the outputs. -/
def rho (ctr : TVal R → Except Err (Arr R)) (n : Nat) (c : Circ (Oper R)) (w w' : Int → Nat) : R :=
  densMatrix ctr (n + 1) (.circ c) ((circOuts (shapes ctr n) c).map w ++ (circOuts (shapes ctr n) c).map w')

/-- A valid circuit without inputs, whose operations have density representations. -/
structure Prepares (ctr : TVal R → Except Err (Arr R)) (k n : Nat) (c : Circ (Oper R)) : Prop where
  built : DensBuilt ctr k (n + 1) (.circ c)
  whole : WholeData (n + 1) (.circ c)
  stamped : Circ.Stamped c
  noIns : circIns (shapes ctr n) c = []

section

variable {k n : Nat} {c c' l : Circ (Oper R)}

theorem Prepares.keys (h : Prepares ctr k n c) : (Dict.keys c).Nodup := by
  have := h.built; rw [DensBuilt] at this; exact this.1

theorem Prepares.valid (h : Prepares ctr k n c) : ∃ s, Circ.shape (shapes ctr n) c = .ok s := by
  have := h.built; rw [DensBuilt] at this; exact this.2.1

theorem Prepares.ops (h : Prepares ctr k n c) : ∀ p ∈ c, DensBuilt ctr k n p.2.op := by
  have := h.built; rw [DensBuilt] at this; exact fun p hp => (this.2.2 p hp).1

theorem Prepares.wholes (h : Prepares ctr k n c) : ∀ p ∈ c, WholeData n p.2.op := by
  have := h.whole; rw [WholeData] at this; exact this

theorem Prepares.fit (h : Prepares ctr k n c) : Fitting (shapes ctr n) c := fun p hp => by
  have := h.built; rw [DensBuilt] at this
  obtain ⟨-, h2, s, h3, h4⟩ := this.2.2 p hp
  exact ⟨s, h3, h4, h2⟩

theorem basisDens_nil (v v' : Int → Nat) : basisDens (R := R) [] v v' = fun _ _ => 1 := by
  funext w w'
  simp [basisDens]

theorem Prepares.rho_eq (h : Prepares ctr k n c) : rho ctr n c =
    evolveDens ((timeSorted c).map fun p => actOf (shapes ctr n) (densMatrix ctr n) p.2) fun _ _ => 1 := by
  funext w w'
  obtain ⟨s, hs⟩ := h.valid
  have key := Circ.circDens_attached h.fit hs Function.injective_id (densMatrix ctr n) w w w w'
  simp only [List.map_id, renamed_id, h.noIns, List.map_nil, List.append_nil, basisDens_nil] at key
  exact key

theorem isChain_append {w w' : List Port} (h : Connectable w) (h' : Connectable w') (hl : ∀ a, w.getLast? = some a → w'.head? ≠ some a) :
    Connectable (w ++ w') := by
  unfold Connectable at *
  refine List.isChain_append.2 ⟨h, h', fun a ha b hb e => ?_⟩
  subst e
  exact hl a ha hb

/-- Appending operations to a circuit that prepares a state. -/
theorem Prepares.extend (h : Prepares ctr k n c) (he : Circ.Extends (shapes ctr n) c l c')
    (hd : ∀ p ∈ l, DensBuilt ctr k n p.2.op) (hw : ∀ p ∈ l, WholeData n p.2.op)
    (hc : ∀ q, Connectable (wireWord (shapes ctr n) q l))
    (hi : ∀ q, wireWord (shapes ctr n) q l ≠ [] → ((wireWord (shapes ctr n) q l).head? = some .inp ↔ q ∈ circOuts (shapes ctr n) c)) :
    Prepares ctr k n c' ∧ rho ctr n c' = evolveDens (l.map fun p => actOf (shapes ctr n) (densMatrix ctr n) p.2) (rho ctr n c) ∧
      ∀ q, q ∈ circOuts (shapes ctr n) c' ↔ if wireWord (shapes ctr n) q l = [] then q ∈ circOuts (shapes ctr n) c
        else (wireWord (shapes ctr n) q l).getLast? = some .out := by
  obtain ⟨s, hs⟩ := h.valid
  have hcw := (Circ.wired_sorted h.fit hs).chain
  have hv := he.shape h.valid h.fit fun q => by
    refine isChain_append (hcw q) (hc q) fun a ha e => ?_
    have hne : wireWord (shapes ctr n) q l ≠ [] := fun e0 => by rw [e0] at e; cases e
    have hi := hi q hne
    rw [Circ.mem_circOuts, ha, e] at hi
    cases a <;> simp at hi
  have hp' : Prepares ctr k n c' := by
    refine ⟨?_, ?_, he.stamped, ?_⟩
    · rw [DensBuilt]
      refine ⟨he.keys, hv, fun p hp => ?_⟩
      obtain ⟨s', k1, k2, k3⟩ := he.fit p hp
      refine ⟨?_, k3, s', k1, k2⟩
      rcases he.mem hp with hp | ⟨p', hp', e, -⟩
      · exact h.ops p hp
      · rw [e]; exact hd p' hp'
    · rw [WholeData]
      intro p hp
      rcases he.mem hp with hp | ⟨p', hp', e, -⟩
      · exact h.wholes p hp
      · rw [e]; exact hw p' hp'
    · rw [List.eq_nil_iff_forall_not_mem]
      intro q hq
      rw [Circ.mem_circIns, he.word] at hq
      by_cases e0 : wireWord (shapes ctr n) q (timeSorted c) = []
      · rw [e0, List.nil_append] at hq
        have hne : wireWord (shapes ctr n) q l ≠ [] := fun e0 => by rw [e0] at hq; cases hq
        have := (hi q hne).1 hq
        rw [Circ.mem_circOuts, e0] at this
        cases this
      · have : q ∈ circIns (shapes ctr n) c := by
          rw [Circ.mem_circIns, ← hq, List.head?_append_of_ne_nil _ e0]
        rw [h.noIns] at this
        cases this
  refine ⟨hp', ?_, fun q => ?_⟩
  · rw [hp'.rho_eq, he.acts, evolveDens_append, ← h.rho_eq]
  · rw [Circ.mem_circOuts, he.word]
    by_cases e0 : wireWord (shapes ctr n) q l = []
    · rw [if_pos e0, e0, List.append_nil, Circ.mem_circOuts]
    · rw [if_neg e0, List.getLast?_append_of_ne_nil _ e0]

end

/-! ### Operations on one qubit or none -/

/-- An entry of the dictionary of operations; name and time are not used. -/
def entry (op : Oper R) (qs : List Int) : Nm × OpRec (Oper R) := (.nil, ⟨op, 0, qs⟩)

theorem pureOk_meas {b : Nat} (hb : b < 2) : PureOk (compMeasRec (R := R) b) := by
  refine ⟨fun w hw => ?_, rfl, ?_, fun b' k h => ?_, (fun h => by cases h)⟩
  · simp only [compMeasRec, List.mem_singleton] at hw
    subst hw
    decide
  · show TVal.Whole (.ten (some (basisArr b)))
    rw [TVal.Whole]; trivial
  · cases h
    refine ⟨hb, rfl, fun x _ => ?_⟩
    show TVal.tot (.ten (some (basisArr b))) [x] = _
    rw [TVal.tot]
    unfold basisArr
    exact if_congr (by simp) rfl rfl

theorem pureOk_state {b : Nat} (hb : b < 2) : PureOk (compStateRec (R := R) b) := by
  refine ⟨fun w hw => ?_, rfl, ?_, fun b' k h => ?_, (fun h => by cases h)⟩
  · simp only [compStateRec, List.mem_singleton] at hw
    subst hw
    decide
  · show TVal.Whole (.ten (some (basisArr b)))
    rw [TVal.Whole]; trivial
  · cases h
    refine ⟨hb, rfl, fun x _ => ?_⟩
    show TVal.tot (.ten (some (basisArr b))) [x] = _
    rw [TVal.tot]
    unfold basisArr
    exact if_congr (by simp) rfl rfl

theorem dens_meas (k n : Nat) {b : Nat} (hb : b < 2) : DensBuilt ctr k (n + 1) (compMeas b) := by
  rw [compMeas, DensBuilt, Built]
  exact ⟨⟨pureOk_meas hb, (fun h => by cases h)⟩, TVal.flat_ten _ _⟩

theorem dens_state (k n : Nat) {b : Nat} (hb : b < 2) : DensBuilt ctr k (n + 1) (compState b) := by
  rw [compState, DensBuilt, Built]
  exact ⟨⟨pureOk_state hb, (fun h => by cases h)⟩, TVal.flat_ten _ _⟩

theorem dens_scalar (k n : Nat) (x : R) : DensBuilt ctr k (n + 1) (scalarOp x) := by
  rw [scalarOp, DensBuilt, Built]
  refine ⟨⟨⟨(fun w hw => by cases hw), rfl, ?_, (fun b k h => by cases h), (fun h => by cases h)⟩, (fun h => by cases h)⟩, TVal.flat_ten _ _⟩
  rw [TVal.Whole]; trivial

theorem dens_trace (k n : Nat) : DensBuilt ctr k (n + 1) (traceOp : Oper R) := by
  rw [traceOp, DensBuilt]
  rfl

theorem whole_trace (n : Nat) : WholeData (n + 1) (traceOp : Oper R) := by
  rw [traceOp, WholeData]
  exact TVal.whole_net fun p hp => by cases hp

theorem whole_meas (n b : Nat) : WholeData n (compMeas b : Oper R) := by
  cases n <;> exact trivial

theorem whole_state (n b : Nat) : WholeData n (compState b : Oper R) := by
  cases n <;> exact trivial

theorem whole_scalar (n : Nat) (x : R) : WholeData n (scalarOp x : Oper R) := by
  cases n <;> exact trivial

/-- Operations that end wires, on different qubits. -/
theorem word_ends {sh : Circ.ShapeFn (Oper R)} {f : Int → Oper R} : ∀ {Q : List Int}, Q.Nodup → (∀ q ∈ Q, shapeD sh (f q) = [[.i]]) → ∀ q',
    wireWord sh q' (Q.map fun q => entry (f q) [q]) = if q' ∈ Q then [.inp] else []
  | [], _, _, _ => rfl
  | q :: Q, hn, hs, q' => by
    obtain ⟨h1, h2⟩ := List.nodup_cons.1 hn
    rw [List.map_cons, Circ.wireWord_cons, word_ends h2 fun q hq => hs q (by simp [hq])]
    show portsAt (shapeD sh (f q)) [q] q' ++ _ = _
    rw [hs q (by simp)]
    by_cases e : q' = q
    · subst e
      rw [portsAt_one, if_neg h1, if_pos (by simp)]; rfl
    · rw [portsAt_other _ e, List.nil_append]
      exact if_congr (by simp [e]) rfl rfl

theorem fit_ends {sh : Circ.ShapeFn (Oper R)} {f : Int → Oper R} {Q : List Int} (hs : ∀ q ∈ Q, sh (f q) = .ok [[.i]]) :
    Fitting sh (Q.map fun q => entry (f q) [q]) := fun p hp => by
  obtain ⟨q, hq, rfl⟩ := List.mem_map.1 hp
  exact ⟨_, hs q hq, rfl, by simp [entry]⟩

/-- Ending the wires of some outputs: what is left is the density matrix on the others. -/
theorem Prepares.ends {k n : Nat} {c : Circ (Oper R)} (h : Prepares ctr k (n + 1) c) {f : Int → Oper R} {Q : List Int} (hn : Q.Nodup)
    (hQ : ∀ q ∈ Q, q ∈ circOuts (shapes ctr (n + 1)) c) (hf : ∀ q ∈ Q, f q = traceOp ∨ ∃ b < 2, f q = compMeas b) :
    ∃ c', Circ.Extends (shapes ctr (n + 1)) c (Q.map fun q => entry (f q) [q]) c' ∧ Prepares ctr k (n + 1) c' ∧
      rho ctr (n + 1) c' = evolveDens (Q.map fun q => actAt ctr (n + 1) (f q) [q]) (rho ctr (n + 1) c) ∧
      circOuts (shapes ctr (n + 1)) c' = (circOuts (shapes ctr (n + 1)) c).filter (· ∉ Q) ∧ ∀ q, q ∈ qubitsOf c' ↔ q ∈ qubitsOf c := by
  have hs : ∀ q ∈ Q, shapes ctr (n + 1) (f q) = .ok [[.i]] := fun q hq => by
    rcases hf q hq with e | ⟨b, -, e⟩ <;> (rw [e]; rfl)
  have hsd : ∀ q ∈ Q, shapeD (shapes ctr (n + 1)) (f q) = [[.i]] := fun q hq => by
    unfold shapeD; rw [hs q hq]
  obtain ⟨c', he⟩ := Circ.extends_all (Q.map fun q => entry (f q) [q]) c h.keys h.fit h.stamped (fit_ends hs)
  have hw := word_ends hn hsd
  obtain ⟨h1, h2, h3⟩ := h.extend he (fun p hp => by
      obtain ⟨q, hq, rfl⟩ := List.mem_map.1 hp
      show DensBuilt ctr k (n + 1) (f q)
      rcases hf q hq with e | ⟨b, hb, e⟩ <;> rw [e]
      · exact dens_trace k n
      · exact dens_meas k n hb)
    (fun p hp => by
      obtain ⟨q, hq, rfl⟩ := List.mem_map.1 hp
      show WholeData (n + 1) (f q)
      rcases hf q hq with e | ⟨b, hb, e⟩ <;> rw [e]
      · exact whole_trace n
      · exact whole_meas _ _)
    (fun q => by rw [hw]; unfold Connectable; split <;> simp)
    (fun q hq => by
      rw [hw] at hq ⊢
      by_cases e : q ∈ Q
      · simp [if_pos e, hQ q e]
      · rw [if_neg e] at hq; exact absurd rfl hq)
  refine ⟨c', he, h1, ?_, ?_, fun q => ?_⟩
  · rw [h2, List.map_map]; rfl
  · refine Circ.sorted_unique (Circ.circOuts_sorted _ _) ((Circ.circOuts_sorted _ _).filter _) fun q => ?_
    rw [h3, hw, List.mem_filter]
    by_cases e : q ∈ Q <;> simp [e]
  · rw [he.qubits]
    refine ⟨fun h => h.elim id ?_, Or.inl⟩
    rintro ⟨p, hp, hq⟩
    obtain ⟨q', hq', rfl⟩ := List.mem_map.1 hp
    have : q = q' := by simpa [entry] using hq
    subst this
    have := hQ q hq'
    unfold circOuts at this
    exact (List.mem_filter.1 this).1

theorem rangeQubits_eq (N : Nat) : rangeQubits 0 N = (List.range N).map fun k : Nat => (k : Int) := by
  unfold rangeQubits; rw [List.range_eq_range']

/-- If the qubits are named by their positions, the positions of the outputs are the output qubits. -/
theorem outPlaces_named {sh : Circ.ShapeFn (Oper R)} {c : Circ (Oper R)} {N : Nat} (hf : Fitting sh c) {s : List (List Letter)} (hs : c.shape sh = .ok s)
    (hN : qubitsOf c = rangeQubits 0 N) : (outPlaces s).map (fun k : Nat => (k : Int)) = circOuts sh c := by
  have hs' := Circ.shape_exact hf hs
  rw [hN, rangeQubits_eq, List.map_map] at hs'
  have hl : s.length = N := by rw [hs']; simp
  unfold circOuts outPlaces places
  rw [hN, rangeQubits_eq, List.filter_map, hl]
  congr 1
  refine List.filter_congr fun k hk => decide_eq_decide.2 ?_
  rw [hs', List.getElem?_map, List.getElem?_range (List.mem_range.1 hk)]
  exact isOut_endsWord _

theorem traceLoop_eq (sh : Circ.ShapeFn (Oper R)) (q : Int) : ∀ (is : List Nat) (c : Circ (Oper R)),
    traceLoop sh q is c = Circ.appendAll sh c (((is.map fun k : Nat => (k : Int)).filter (· ∉ [q])).map fun i => entry traceOp [i])
  | [], c => rfl
  | i :: is, c => by
    rw [traceLoop, List.map_cons, List.filter_cons]
    by_cases e : (i : Int) = q
    · rw [if_neg (by simpa using e), if_neg (by simp [e])]
      exact traceLoop_eq sh q is c
    · rw [if_pos e, if_pos (by simpa using e), List.map_cons]
      show _ = Circ.appendAll sh c ((Nm.nil, ⟨traceOp, 0, [(i : Int)]⟩) :: _)
      rw [Circ.appendAll]
      cases c.append sh traceOp [(i : Int)] with
      | error e => rfl
      | ok c' => exact traceLoop_eq sh q is c'

theorem qubitsOf_congr {c c' : Circ (Oper R)} (h : ∀ q, q ∈ qubitsOf c' ↔ q ∈ qubitsOf c) : qubitsOf c' = qubitsOf c :=
  Circ.sorted_unique (Circ.qubitsOf_sorted _) (Circ.qubitsOf_sorted _) h

section

variable {k n N : Nat} {c : Circ (Oper R)} (h : Prepares ctr k (n + 1) c)

include h

theorem Prepares.copy : c.copy (shapes ctr (n + 1)) = .ok c := Circ.c39_copy h.keys h.fit

theorem Prepares.meas {q : Int} (hq : q ∈ circOuts (shapes ctr (n + 1)) c) {b : Nat} (hb : b < 2) :
    ∃ c', c.append (shapes ctr (n + 1)) (compMeas b) [q] = .ok c' ∧ Prepares ctr k (n + 1) c' ∧
      rho ctr (n + 1) c' = condition q b (rho ctr (n + 1) c) ∧
      circOuts (shapes ctr (n + 1)) c' = (circOuts (shapes ctr (n + 1)) c).filter (· ∉ [q]) ∧ qubitsOf c' = qubitsOf c := by
  obtain ⟨c', h1, h2, h3, h4, h5⟩ := h.ends (f := fun _ => compMeas b) (Q := [q]) (by simp) (by simpa using hq) (fun _ _ => Or.inr ⟨b, hb, rfl⟩)
  refine ⟨c', ?_, h2, ?_, h4, qubitsOf_congr h5⟩
  · rw [← Circ.appendAll_one c (compMeas b) [q] .nil 0]; exact h1.app
  · rw [h3]; funext w w'; exact applyDens_meas hb q _ w w'

/-- The circuit whose contraction is the probability of the outcome 1. -/
theorem Prepares.prob (hN : qubitsOf c = rangeQubits 0 N) {q : Int} (hq : q ∈ circOuts (shapes ctr (n + 1)) c) :
    ∃ c', probCirc (shapes ctr (n + 1)) c q = .ok c' ∧ Prepares ctr k (n + 1) c' ∧ circOuts (shapes ctr (n + 1)) c' = [] ∧
      ∀ u, rho ctr (n + 1) c' u u = sumOver bits ((circOuts (shapes ctr (n + 1)) c).filter (· ∉ [q]))
        (fun x => condition q 1 (rho ctr (n + 1) c) x x) u := by
  obtain ⟨c2, h1, h2, h3, h4, h5⟩ := h.meas hq (b := 1) (by omega)
  obtain ⟨s, hs⟩ := h2.valid
  have ho := outPlaces_named h2.fit hs (h5.trans hN)
  have hnd := (Circ.nodup_of_sorted (Circ.circOuts_sorted (shapes ctr (n + 1)) c)).filter fun q' => decide (q' ∉ [q])
  obtain ⟨c', k1, k2, k3, k4, k5⟩ := h2.ends (f := fun _ => traceOp) hnd (fun q' hq' => by rw [h4]; exact hq') fun _ _ => Or.inl rfl
  refine ⟨c', ?_, k2, ?_, fun u => ?_⟩
  · unfold probCirc
    rw [h.copy]
    show (match c.append (shapes ctr (n + 1)) (compMeas 1) [q] with
      | .error e => Except.error e
      | .ok c2 =>
        match Circ.shape (shapes ctr (n + 1)) c2 with
        | .error e => .error e
        | .ok s => traceLoop (shapes ctr (n + 1)) q (indicesWith Letter.endsOut s) c2) = _
    rw [h1]
    show (match Circ.shape (shapes ctr (n + 1)) c2 with
        | .error e => Except.error e
        | .ok s => traceLoop (shapes ctr (n + 1)) q (indicesWith Letter.endsOut s) c2) = _
    rw [hs]
    show traceLoop (shapes ctr (n + 1)) q (indicesWith Letter.endsOut s) c2 = _
    rw [indicesWith_endsOut, traceLoop_eq, ho, h4, List.filter_filter]
    simp only [Bool.and_self]
    exact k1.app
  · rw [k4, h4, List.filter_filter, List.filter_eq_nil_iff]
    intro q' hq'
    simp [hq']
  · rw [k3, evolveDens_traces, h3]

theorem Prepares.scalar (x : R) : ∃ c', c.append (shapes ctr (n + 1)) (scalarOp x) [] = .ok c' ∧ Prepares ctr k (n + 1) c' ∧
    (∀ w w', rho ctr (n + 1) c' w w' = x * star x * rho ctr (n + 1) c w w') ∧
    circOuts (shapes ctr (n + 1)) c' = circOuts (shapes ctr (n + 1)) c ∧ qubitsOf c' = qubitsOf c := by
  have hw : ∀ q, wireWord (shapes ctr (n + 1)) q [entry (scalarOp x) []] = [] := fun q => by
    rw [Circ.wireWord_cons, show portsAt _ (entry (scalarOp x) []).2.qubits q = [] from portsAt_nil (by simp [entry])]; rfl
  obtain ⟨c', he⟩ := Circ.extends_all (sh := shapes ctr (n + 1)) [entry (scalarOp x) []] c h.keys h.fit h.stamped fun p hp => by
    obtain rfl := List.mem_singleton.1 hp
    exact ⟨[], rfl, rfl, List.nodup_nil⟩
  obtain ⟨h1, h2, h3⟩ := h.extend he (fun p hp => by obtain rfl := List.mem_singleton.1 hp; exact dens_scalar k n x)
    (fun p hp => by obtain rfl := List.mem_singleton.1 hp; exact whole_scalar _ x) (fun q => by rw [hw]; exact List.IsChain.nil)
    (fun q hq => absurd (hw q) hq)
  refine ⟨c', ?_, h1, fun w w' => ?_, ?_, qubitsOf_congr fun q => ?_⟩
  · rw [← Circ.appendAll_one c (scalarOp x) [] .nil 0]; exact he.app
  · rw [h2]; exact applyDens_scalar x _ w w'
  · exact Circ.sorted_unique (Circ.circOuts_sorted _ _) (Circ.circOuts_sorted _ _) fun q => by rw [h3, if_pos (hw q)]
  · rw [he.qubits]
    refine ⟨fun h => h.elim id ?_, Or.inl⟩
    rintro ⟨p, hp, hq⟩
    obtain rfl := List.mem_singleton.1 hp
    cases hq

theorem Prepares.state {q : Int} (hq : q ∉ circOuts (shapes ctr (n + 1)) c) {b : Nat} (hb : b < 2) :
    ∃ c', c.append (shapes ctr (n + 1)) (compState b) [q] = .ok c' ∧ Prepares ctr k (n + 1) c' ∧
      rho ctr (n + 1) c' = project q b (rho ctr (n + 1) c) ∧
      (∀ q', q' ∈ circOuts (shapes ctr (n + 1)) c' ↔ q' = q ∨ q' ∈ circOuts (shapes ctr (n + 1)) c) ∧
      ∀ q', q' ∈ qubitsOf c' ↔ q' ∈ qubitsOf c ∨ q' = q := by
  have hw : ∀ q', wireWord (shapes ctr (n + 1)) q' [entry (compState b) [q]] = if q' = q then [.out] else [] := fun q' => by
    rw [Circ.wireWord_cons]
    show portsAt [[.o]] [q] q' ++ [] = _
    rw [List.append_nil]
    by_cases e : q' = q
    · subst e; rw [portsAt_one, if_pos rfl]; rfl
    · rw [portsAt_other _ e, if_neg e]
  obtain ⟨c', he⟩ := Circ.extends_all (sh := shapes ctr (n + 1)) [entry (compState b) [q]] c h.keys h.fit h.stamped fun p hp => by
    obtain rfl := List.mem_singleton.1 hp
    exact ⟨[[.o]], rfl, rfl, List.nodup_singleton _⟩
  obtain ⟨h1, h2, h3⟩ := h.extend he (fun p hp => by obtain rfl := List.mem_singleton.1 hp; exact dens_state k n hb)
    (fun p hp => by obtain rfl := List.mem_singleton.1 hp; exact whole_state _ b) (fun q' => by rw [hw]; unfold Connectable; split <;> simp)
    (fun q' hq' => by
      rw [hw] at hq' ⊢
      by_cases e : q' = q
      · subst e; simp [hq]
      · rw [if_neg e] at hq'; exact absurd rfl hq')
  refine ⟨c', ?_, h1, ?_, fun q' => ?_, fun q' => ?_⟩
  · rw [← Circ.appendAll_one c (compState b) [q] .nil 0]; exact he.app
  · rw [h2]; funext w w'; exact applyDens_state q _ w w'
  · rw [h3, hw]
    by_cases e : q' = q <;> simp [e]
  · rw [he.qubits]
    simp [entry]

/-- The circuit after the measurement. -/
theorem Prepares.post {q : Int} (hq : q ∈ circOuts (shapes ctr (n + 1)) c) {b : Nat} (hb : b < 2) (x : R) (remove : Bool) :
    ∃ c', postCirc (shapes ctr (n + 1)) c q b x remove = .ok c' ∧ Prepares ctr k (n + 1) c' ∧
      circOuts (shapes ctr (n + 1)) c' =
        (if remove then (circOuts (shapes ctr (n + 1)) c).filter (· ∉ [q]) else circOuts (shapes ctr (n + 1)) c) ∧
      qubitsOf c' = qubitsOf c ∧
      ∀ w w', rho ctr (n + 1) c' w w' = x * star x *
        (if remove then condition q b (rho ctr (n + 1) c) w w' else project q b (rho ctr (n + 1) c) w w') := by
  obtain ⟨c2, h1, h2, h3, h4, h5⟩ := h.meas hq hb
  obtain ⟨c3, k1, k2, k3, k4, k5⟩ := h2.scalar x
  have e : postCirc (shapes ctr (n + 1)) c q b x remove =
      if remove then .ok c3 else c3.append (shapes ctr (n + 1)) (compState b) [q] := by
    unfold postCirc
    rw [h.copy]
    show (match c.append (shapes ctr (n + 1)) (compMeas b) [q] with
      | .error e => Except.error e
      | .ok c2 =>
        match c2.append (shapes ctr (n + 1)) (scalarOp x) [] with
        | .error e => .error e
        | .ok c3 => if remove then .ok c3 else c3.append (shapes ctr (n + 1)) (compState b) [q]) = _
    rw [h1]
    show (match c2.append (shapes ctr (n + 1)) (scalarOp x) [] with
        | .error e => Except.error e
        | .ok c3 => if remove then .ok c3 else c3.append (shapes ctr (n + 1)) (compState b) [q]) = _
    rw [k1]
  rw [e]
  cases remove with
  | true =>
    refine ⟨c3, rfl, k2, k4.trans h4, k5.trans h5, fun w w' => ?_⟩
    rw [k3, h3]; rfl
  | false =>
    obtain ⟨c4, m1, m2, m3, m4, m5⟩ := k2.state (q := q) (by rw [k4, h4]; simp) hb
    refine ⟨c4, m1, m2, ?_, ?_, fun w w' => ?_⟩
    · refine Circ.sorted_unique (Circ.circOuts_sorted _ _) (Circ.circOuts_sorted _ _) fun q' => ?_
      rw [m4, k4, h4, List.mem_filter]
      by_cases e : q' = q
      · subst e; simpa using hq
      · simp [e]
    · refine qubitsOf_congr fun q' => ?_
      rw [m5, k5, h5]
      refine ⟨fun h => h.elim id ?_, Or.inl⟩
      rintro rfl
      unfold circOuts at hq
      exact (List.mem_filter.1 hq).1
    · rw [m3]
      unfold project
      simp only [Bool.false_eq_true, if_false]
      by_cases e : w q = b ∧ w' q = b
      · rw [if_pos e, if_pos e, k3, h3]
        unfold condition
        rw [← e.1]
        conv_lhs => rw [show Function.update w' q (w q) = w' from by rw [e.1, ← e.2]; simp]
        simp
      · rw [if_neg e, if_neg e, mul_zero]

theorem Prepares.dependsOn : ∀ w w' v v' : Int → Nat, (∀ q ∈ circOuts (shapes ctr (n + 1)) c, w q = v q) →
    (∀ q ∈ circOuts (shapes ctr (n + 1)) c, w' q = v' q) → rho ctr (n + 1) c w w' = rho ctr (n + 1) c v v' := fun w w' v v' h1 h2 => by
  unfold rho
  rw [List.map_congr_left h1, List.map_congr_left h2]

/-- The sum over the other outputs is the probability. -/
theorem Prepares.prob_sum {q : Int} (hq : q ∈ circOuts (shapes ctr (n + 1)) c) {b : Nat} (hb : b < 2) (u : Int → Nat) :
    sumOver bits ((circOuts (shapes ctr (n + 1)) c).filter (· ∉ [q])) (fun x => condition q b (rho ctr (n + 1) c) x x) u =
      probOf (circOuts (shapes ctr (n + 1)) c) (rho ctr (n + 1) c) q b := by
  have hnd := Circ.nodup_of_sorted (Circ.circOuts_sorted (shapes ctr (n + 1)) c)
  have hp : (circOuts (shapes ctr (n + 1)) c).Perm ((circOuts (shapes ctr (n + 1)) c).filter (· ∉ [q]) ++ [q]) := by
    refine (List.perm_ext_iff_of_nodup hnd ?_).2 fun q' => ?_
    · refine List.nodup_append.2 ⟨hnd.filter _, List.nodup_singleton _, fun a ha b hb' e => ?_⟩
      subst e
      simp only [List.mem_filter, decide_eq_true_eq] at ha
      exact ha.2 hb'
    · by_cases e : q' = q
      · subst e; simpa using hq
      · simp [e]
  unfold probOf
  rw [sumOver_perm hp, sumOver_append]
  have h1 : ∀ x : Int → Nat, sumOver bits [q] (fun x => if x q = b then rho ctr (n + 1) c x x else 0) x =
      condition q b (rho ctr (n + 1) c) x x := fun x => by
    rw [sumOver_one]
    simp only [Function.update_self]
    have : b = 0 ∨ b = 1 := by omega
    rcases this with rfl | rfl <;> simp [condition]
  rw [sumOver_congr h1]
  refine sumOver_base_dep (l' := (circOuts (shapes ctr (n + 1)) c).filter (· ∉ [q])) (fun x y hxy => ?_) fun e he he' => absurd he he'
  unfold condition
  have : ∀ q' ∈ circOuts (shapes ctr (n + 1)) c, Function.update x q b q' = Function.update y q b q' := fun q' hq' => by
    by_cases e : q' = q
    · subst e; simp
    · rw [Function.update_of_ne e, Function.update_of_ne e]
      exact hxy q' (by simp [hq', e])
  exact h.dependsOn _ _ _ _ this this

end

end Oper

end Verif
