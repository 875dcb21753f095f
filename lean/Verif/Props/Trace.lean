import Verif.Lemmas.Isometric
import Verif.Props.Measure
import Verif.Props.Kraus
/-!
# C54 Circuits of unitaries, normalised states and channels keep the trace
-/

set_option linter.unusedSectionVars false

namespace Verif

namespace Oper

section Semiring

variable {R : Type} [CommSemiring R] [StarRing R] {ctr : TVal R → Except Err (Arr R)} {G : TN.Glue} {k n K N : Nat}

/-- The data of all gates, controlled gates and channels in the operation are normalised: gates and states have
orthonormal columns, controlled gates orthonormal columns in every block, channels keep the trace. -/
def Normal (ctr : TVal R → Except Err (Arr R)) : Nat → Oper R → Prop
  | 0, _ => False
  | _ + 1, .imm data s => KeepsTrace data.tot (outPlaces s).length (inPlaces s).length
  | _ + 1, .pure p _ => Isometric p.data.tot (outPlaces p.shape).length (inPlaces p.shape).length
  | _ + 1, .ctrl data s _ _ => ∀ cs, Bits cs (ctrlPlaces s).length → Isometric (fun idx => data.tot (cs ++ idx))
      ((outPlaces s).filter (· ∉ ctrlPlaces s)).length ((inPlaces s).filter (· ∉ ctrlPlaces s)).length
  | n + 1, .circ c => ∀ p ∈ c, Normal ctr n p.2.op
  | n + 1, .cctrl c _ _ => ∀ p ∈ c, Normal ctr n p.2.op
  | n + 1, .sup terms s => Isometric (fun idx => (terms.map fun p => p.1 * matrix ctr n p.2 idx).sum) (outPlaces s).length (inPlaces s).length

/-- **C54**, gates, controlled gates and circuits: the matrix has orthonormal columns. -/
theorem c54_isometric (hctr : Evaluates ctr) : ∀ (n : Nat) (b : Bool) (op : Oper R), Built ctr n b op → Normal ctr n op →
    ∃ s, (iface ctr n).shape op = .ok s ∧ Isometric (matrix ctr n op) (outPlaces s).length (inPlaces s).length
  | 0, _, op, h, _ => by cases op <;> exact absurd h (by simp [Built])
  | n + 1, _, .imm _ _, h, _ => absurd h (by simp [Built])
  | n + 1, b, .pure p q, _, hn => ⟨p.shape, rfl, by rw [Normal] at hn; exact hn⟩
  | n + 1, b, .ctrl data s sa ov, _, hn => ⟨s, rfl, by rw [Normal] at hn; exact isometric_block hn⟩
  | n + 1, b, .circ c, h, hn => by
    rw [Built] at h
    rw [Normal] at hn
    obtain ⟨-, ⟨s, h2⟩, h3, -⟩ := h
    have hfit : Fitting (iface ctr n).shape c := fun p hp => by
      obtain ⟨-, j2, s, j3, j4⟩ := h3 p hp
      exact ⟨s, j3, j4, j2⟩
    refine ⟨s, h2, ?_⟩
    rw [Circ.outs_length hfit h2, Circ.ins_length hfit h2]
    refine Circ.isometric hfit h2 fun p hp => ?_
    obtain ⟨j1, j2, s, j3, j4⟩ := h3 p hp
    obtain ⟨s', k1, k2⟩ := c54_isometric hctr n b p.2.op j1 (hn p hp)
    rw [j3] at k1
    cases k1
    have hsd : shapeD (iface ctr n).shape p.2.op = s := by simp [shapeD, j3]
    simp only [actOf, hsd]
    rw [outQubits_length j4 j2, inQubits_length j4 j2]
    exact k2
  | n + 1, b, .cctrl c s cond, h, hn => by
    rw [Built] at h
    rw [Normal] at hn
    obtain ⟨-, ⟨s0, h2, rfl⟩, h3, -, -⟩ := h
    have hsq : Circ.AllSquare (iface ctr n).shape c := fun p hp => by
      obtain ⟨j1, j2, s, j3, j4⟩ := h3 p hp
      obtain ⟨s', t, -, j5⟩ := means_built hctr n true p.2.op j1
      have := (j5 rfl cond).1
      rw [this] at j3
      cases j3
      exact ⟨_, this, j4, j2, (j5 rfl cond).2.1⟩
    have hfit := hsq.fitting
    have hm : Isometric (circMat (iface ctr n).shape (matrix ctr n) c) (circOuts (iface ctr n).shape c).length (circIns (iface ctr n).shape c).length := by
      refine Circ.isometric hfit h2 fun p hp => ?_
      obtain ⟨j1, j2, s, j3, j4⟩ := h3 p hp
      obtain ⟨s', k1, k2⟩ := c54_isometric hctr n true p.2.op j1 (hn p hp)
      rw [j3] at k1
      cases k1
      have hsd : shapeD (iface ctr n).shape p.2.op = s := by simp [shapeD, j3]
      simp only [actOf, hsd]
      rw [outQubits_length j4 j2, inQubits_length j4 j2]
      exact k2
    have hsq0 : Square s0 := fun w hw => by
      rw [hsq.shape h2] at hw
      obtain ⟨-, -, rfl⟩ := List.mem_map.1 hw
      exact Or.inl rfl
    have hlen : s0.length = (circOuts (iface ctr n).shape c).length := by
      rw [← Circ.outs_length hfit h2, hsq0.outs, List.length_range]
    refine ⟨_, rfl, ?_⟩
    rw [hsq0.cons.outs, hsq0.cons.ins, List.length_range, List.length_cons, hlen]
    rw [hsq.ins, ← hsq.outs] at hm
    exact isometric_control hm
  | n + 1, b, .sup terms s, _, hn => ⟨s, rfl, by rw [Normal] at hn; exact hn⟩

/-- **C54.**  Every operation with a density representation, made of normalised data, keeps the trace: gates, controlled
gates and circuits, channels, and circuits of these nested to any depth. -/
theorem c54_keeps (hctr : Evaluates ctr) : ∀ (n : Nat) (op : Oper R), DensBuilt ctr k n op → Normal ctr n op →
    ∃ s, (iface ctr n).shape op = .ok s ∧ KeepsTrace (densMatrix ctr n op) (outPlaces s).length (inPlaces s).length
  | 0, op, h, _ => by cases op <;> exact absurd h (by simp [DensBuilt])
  | n + 1, .imm data s, _, hn => ⟨s, rfl, by rw [Normal] at hn; exact hn⟩
  | n + 1, .pure p q, h, hn => by
    rw [DensBuilt] at h
    obtain ⟨s, h1, h2⟩ := c54_isometric hctr _ _ _ h.1 hn
    exact ⟨s, h1, keeps_pair h2⟩
  | n + 1, .ctrl data s sa ov, h, hn => by
    rw [DensBuilt] at h
    obtain ⟨s, h1, h2⟩ := c54_isometric hctr _ _ _ h.1 hn
    exact ⟨s, h1, keeps_pair h2⟩
  | n + 1, .cctrl c s cond, h, hn => by
    rw [DensBuilt] at h
    obtain ⟨s, h1, h2⟩ := c54_isometric hctr _ _ _ h hn
    exact ⟨s, h1, keeps_pair h2⟩
  | n + 1, .circ c, h, hn => by
    rw [DensBuilt] at h
    rw [Normal] at hn
    obtain ⟨-, ⟨s, h2⟩, h3⟩ := h
    have hfit : Fitting (iface ctr n).shape c := fun p hp => by
      obtain ⟨-, j2, s, j3, j4⟩ := h3 p hp
      exact ⟨s, j3, j4, j2⟩
    refine ⟨s, h2, ?_⟩
    rw [Circ.outs_length hfit h2, Circ.ins_length hfit h2]
    refine Circ.keepsTrace hfit h2 fun p hp => ?_
    obtain ⟨j1, j2, s, j3, j4⟩ := h3 p hp
    obtain ⟨s', k1, k2⟩ := c54_keeps hctr n p.2.op j1 (hn p hp)
    rw [j3] at k1
    cases k1
    have hsd : shapeD (iface ctr n).shape p.2.op = s := by simp [shapeD, j3]
    simp only [actOf, hsd]
    rw [outQubits_length j4 j2, inQubits_length j4 j2]
    exact k2
  | n + 1, .sup _ _, h, _ => absurd h (by simp [DensBuilt])

/-- **C54.**  The state prepared by a circuit without inputs, made of normalised data, has trace 1. -/
theorem c54_trace (hctr : Evaluates ctr) {c : Circ (Oper R)} (h : Prepares ctr k n c) (hn : ∀ p ∈ c, Normal ctr n p.2.op) :
    traceOf (circOuts (shapes ctr n) c) (rho ctr n c) = 1 := by
  obtain ⟨s, h1, h2⟩ := c54_keeps hctr (n + 1) (.circ c) h.built (by rw [Normal]; exact hn)
  have h1 : Circ.shape (shapes ctr n) c = .ok s := h1
  rw [Circ.outs_length h.fit h1, Circ.ins_length h.fit h1, h.noIns] at h2
  have := h2 [] [] ⟨rfl, by simp⟩ ⟨rfl, by simp⟩
  rw [if_pos rfl] at this
  simp only [List.append_nil] at this
  rw [← this]
  exact sum_bits (Circ.nodup_of_sorted (Circ.circOuts_sorted (shapes ctr n) c)) (fun w => densMatrix ctr (n + 1) (.circ c) (w ++ w)) fun _ => 0

/-- **C54.**  The probabilities of the two values of an output qubit sum to 1. -/
theorem c54_probs (hctr : Evaluates ctr) {c : Circ (Oper R)} (h : Prepares ctr k n c) (hn : ∀ p ∈ c, Normal ctr n p.2.op) {q : Int}
    (hq : q ∈ circOuts (shapes ctr n) c) : probOf (circOuts (shapes ctr n) c) (rho ctr n c) q 0 + probOf (circOuts (shapes ctr n) c) (rho ctr n c) q 1 = 1 := by
  rw [← trace_split _ hq, c54_trace hctr h hn]

/-- **C54.**  Appending a normalised operation to a circuit that prepares a state does not change the trace, whatever
the circuit contains. -/
theorem c54_append (hctr : Evaluates ctr) {c c' : Circ (Oper R)} {op : Oper R} {qs : List Int} (h : Prepares ctr k n c)
    (ha : c.append (shapes ctr n) op qs = .ok c') (h' : Prepares ctr k n c') (hn : Normal ctr n op) :
    traceOf (circOuts (shapes ctr n) c') (rho ctr n c') = traceOf (circOuts (shapes ctr n) c) (rho ctr n c) := by
  obtain ⟨nm, t, rfl, k2, k3, k4⟩ := Circ.c40_append_partial h.stamped ha
  obtain ⟨s, hs⟩ := h.valid
  obtain ⟨s', hs'⟩ := h'.valid
  have hmem : (nm, (⟨op, t, qs⟩ : OpRec (Oper R))) ∈ c ++ [(nm, ⟨op, t, qs⟩)] := by simp
  have hts : timeSorted (c ++ [(nm, ⟨op, t, qs⟩)]) = timeSorted c ++ [(nm, ⟨op, t, qs⟩)] := by
    rw [Circ.timeSorted_append fun p hp p' hp' => by rw [List.mem_singleton.1 hp']; exact k3 p hp]
    rfl
  obtain ⟨f1, f2⟩ := Circ.sorted_flows h.fit hs (densMatrix ctr n)
  obtain ⟨g1, g2⟩ := Circ.sorted_flows h'.fit hs' (densMatrix ctr n)
  rw [h.noIns] at f1 f2
  rw [h'.noIns, hts, List.map_append] at g1 g2
  have flows_split : ∀ (l m : List (Act R)) (Q : List Int), Flows Q (l ++ m) → Flows (afterAll Q l) m ∧ afterAll Q (l ++ m) = afterAll (afterAll Q l) m := by
    intro l m
    induction l with
    | nil => exact fun Q h => ⟨h, rfl⟩
    | cons p l ih => exact fun Q h => ih _ h.2.2.2.2.2
  obtain ⟨g3, g4⟩ := flows_split _ _ _ g1
  rw [g4] at g2
  have hρ := h.rho_eq
  have hρ' := h'.rho_eq
  rw [hts, List.map_append, evolveDens_append, ← hρ] at hρ'
  have hdep : DependsOn2 (rho ctr n c) (afterAll [] ((timeSorted c).map fun p => actOf (shapes ctr n) (densMatrix ctr n) p.2)) := by
    rw [hρ]
    exact evolveDens_dependsOn fun _ _ _ _ _ _ => rfl
  obtain ⟨hQ, hi, ho, hni, hno, hnd⟩ := g3
  obtain ⟨sop, e1, e2, e3⟩ := h'.fit _ hmem
  have hk := c54_keeps hctr n op (h'.ops _ hmem) hn
  obtain ⟨sop', e4, hk⟩ := hk
  have e4 : shapes ctr n op = .ok sop' := e4
  have e1 : shapes ctr n op = .ok sop := e1
  rw [e1] at e4
  cases e4
  have hsd : shapeD (shapes ctr n) op = sop := by simp [shapeD, e1]
  have key := trace_applyDens (a := fun _ => 0) hQ hi ho hni hno (by
    dsimp only
    simp only [actOf, hsd]
    rw [outQubits_length e2 e3, inQubits_length e2 e3]
    exact hk) hdep
  unfold traceOf
  rw [sumOver_perm ((List.perm_ext_iff_of_nodup (Circ.nodup_of_sorted (Circ.circOuts_sorted _ _)) hQ).2 fun q => (f2 q).symm), ← key,
    sumOver_perm ((List.perm_ext_iff_of_nodup (Circ.nodup_of_sorted (Circ.circOuts_sorted _ _)) hnd).2 fun q => (g2 q).symm), hρ']
  rfl

/-! ### Where normalised data comes from -/

/-- `operation_from_kraus` with operators `Σ K† K = 1`. -/
theorem c54_kraus_partial {s : List (List Letter)} (hs : ∀ w ∈ s, PlainWord w ∧ w ≠ []) {Ks : List (Arr R)}
    (hK : ∀ a ∈ Ks, KrausShape (inPlaces s).length (outPlaces s).length a)
    (hc : Complete (Ks.map (krausEntry (outPlaces s).length)) (outPlaces s).length (inPlaces s).length) :
    ∃ op, fromKraus s (Ks.map (.array false)) = .ok op ∧ ∀ n, DensBuilt ctr k (n + 1) op ∧ Normal ctr (n + 1) op := by
  obtain ⟨b, h1, h2, h3⟩ := c50_kraus_partial (ctr := ctr) hs hK
  refine ⟨_, h1, fun n => ⟨h2 k n, ?_⟩⟩
  rw [Normal, TVal.tot]
  intro x x' hx hx'
  rw [← hc x x' hx hx', List.map_map]
  refine Eq.trans (sumIdx_bits fun w hw => ?_)
    (sumIdx_list _ Ks fun a w => krausEntry (outPlaces s).length a (w ++ x) * star (krausEntry (outPlaces s).length a (w ++ x')))
  rw [List.append_assoc (w ++ x)]
  have b1 := hw.append hx
  have b2 := hw.append hx'
  rw [Nat.add_comm] at b1 b2
  exact h3 _ _ b1 b2

/-- `Unitary(n, U)` with `U† U = 1`. -/
theorem c54_unitary {m : Nat} {a : Arr R} (h : a.shape = [2 ^ m, 2 ^ m])
    (hU : ∀ i < 2 ^ m, ∀ j < 2 ^ m, (∑ r ∈ Finset.range (2 ^ m), a.get [r, i] * star (a.get [r, j])) = if i = j then 1 else 0) :
    ∃ op, unitary m a = .ok op ∧ ∀ n, Built ctr (n + 1) false op ∧ Normal ctr (n + 1) op := by
  obtain ⟨p, h1, h2, h3, h4⟩ := c50_unitary (ctr := ctr) h
  refine ⟨_, h1, fun n => ⟨by rw [Built]; exact ⟨h2, fun h => by cases h⟩, ?_⟩⟩
  rw [Normal, h3]
  have hi : (inPlaces (List.replicate m [Letter.i, .o])).length = m := by rw [inPlaces_uniform]; rfl
  have ho : (outPlaces (List.replicate m [Letter.i, .o])).length = m := by rw [outPlaces_uniform]; rfl
  rw [hi, ho]
  intro x x' hx hx'
  have e : ∀ w z, Bits w m → Bits z m → p.data.tot (w ++ z) = a.get [binary w, binary z] := fun w z hw hz => h4 0 w z hw hz
  rw [sumIdx_bits (g := fun w => (fun r => a.get [r, binary x] * star (a.get [r, binary x'])) (binary w)) fun w hw => by
    rw [e _ _ hw hx, e _ _ hw hx'], sumIdx_binary m fun r => a.get [r, binary x] * star (a.get [r, binary x']), hU _ (binary_lt hx) _ (binary_lt hx')]
  refine if_congr ⟨fun hb => ?_, fun hb => by rw [hb]⟩ rfl rfl
  rw [← unoffset_bits m hx, hb, unoffset_bits m hx']

/-- `PureState(n, v)` with a normalised vector. -/
theorem c54_pure_state {m : Nat} {a : Arr R} (h : a.shape = [2 ^ m])
    (hv : (∑ r ∈ Finset.range (2 ^ m), a.get [r] * star (a.get [r])) = 1) :
    ∃ op, pureState m a = .ok op ∧ ∀ n, Built ctr (n + 1) false op ∧ Normal ctr (n + 1) op := by
  obtain ⟨p, h1, h2, h3, h4⟩ := c50_pure_state (ctr := ctr) h
  refine ⟨_, h1, fun n => ⟨by rw [Built]; exact ⟨h2, fun h => by cases h⟩, ?_⟩⟩
  rw [Normal, h3]
  have hi : (inPlaces (List.replicate m [Letter.o])).length = 0 := by rw [inPlaces_uniform]; rfl
  have ho : (outPlaces (List.replicate m [Letter.o])).length = m := by rw [outPlaces_uniform]; rfl
  rw [hi, ho]
  intro x x' hx hx'
  obtain rfl := List.length_eq_zero_iff.1 hx.1
  obtain rfl := List.length_eq_zero_iff.1 hx'.1
  rw [if_pos rfl, ← hv, ← sumIdx_binary m fun r => a.get [r] * star (a.get [r])]
  refine sumIdx_bits fun w hw => ?_
  have e : p.data.tot w = a.get [binary w] := h4 0 w hw
  rw [List.append_nil, e]

/-- `State(n, ρ)` with trace 1. -/
theorem c54_state {m : Nat} {a : Arr R} (h : a.shape = [2 ^ m, 2 ^ m]) (ht : (∑ r ∈ Finset.range (2 ^ m), a.get [r, r]) = 1) :
    ∃ op, state m a = .ok op ∧ ∀ n, DensBuilt ctr k (n + 1) op ∧ Normal ctr (n + 1) op := by
  obtain ⟨op, h1, h2⟩ := c50_state (ctr := ctr) h
  have hi : (inPlaces (List.replicate m [Letter.o])).length = 0 := by rw [inPlaces_uniform]; rfl
  have ho : (outPlaces (List.replicate m [Letter.o])).length = m := by rw [outPlaces_uniform]; rfl
  obtain ⟨b, h4, -⟩ := (c50_immutable (a := a) (s := List.replicate m [Letter.o]) fun w hw => by rw [List.eq_of_mem_replicate hw]; decide).1
    (by rw [h, hi, ho]; simp [pow_add, two_mul])
  obtain rfl : op = .imm (.ten (some b)) (List.replicate m [.o]) := Except.ok.inj (h1.symm.trans h4)
  refine ⟨_, h1, fun n => ⟨(h2 k n).1, ?_⟩⟩
  rw [Normal, hi, ho]
  intro x x' hx hx'
  obtain rfl := List.length_eq_zero_iff.1 hx.1
  obtain rfl := List.length_eq_zero_iff.1 hx'.1
  rw [if_pos rfl, ← ht, ← sumIdx_binary m fun r => a.get [r, r]]
  refine sumIdx_bits fun w hw => ?_
  rw [List.append_nil, List.append_nil]
  exact (h2 k n).2.2 w w hw hw

end Semiring

/-! ### Sessions -/

section Ring

variable {R : Type} [CommRing R] [StarRing R] {ctr : TVal R → Except Err (Arr R)} {G : TN.Glue} {k n K : Nat}

/-- The circuits that come up when operations are appended and qubits are measured, in any order. -/
inductive Session (ctr : TVal R → Except Err (Arr R)) (G : TN.Glue) (k K n : Nat) (re isq : R → R) : Circ (Oper R) → Prop
  | empty : Session ctr G k K n re isq []
  | append {c c' : Circ (Oper R)} {op : Oper R} {qs : List Int} : Session ctr G k K n re isq c →
      c.append (shapes ctr (n + 1)) op qs = .ok c' → Prepares ctr k (n + 1) c' → Normal ctr (n + 1) op → Session ctr G k K n re isq c'
  | measure {c c' : Circ (Oper R)} {N : Nat} {q : Int} {b remove coll : Bool} {coin : R → Except Err Bool} : Session ctr G k K n re isq c →
      qubitsOf c = rangeQubits 0 N → q ∈ circOuts (shapes ctr (n + 1)) c →
      re (probOf (circOuts (shapes ctr (n + 1)) c) (rho ctr (n + 1) c) q 1) = probOf (circOuts (shapes ctr (n + 1)) c) (rho ctr (n + 1) c) q 1 →
      (∀ p, p = probOf (circOuts (shapes ctr (n + 1)) c) (rho ctr (n + 1) c) q (if b then 1 else 0) → isq p * star (isq p) * p = 1) →
      coin (re (probOf (circOuts (shapes ctr (n + 1)) c) (rho ctr (n + 1) c) q 1)) = .ok b →
      measure ctr G K (n + 1) re isq coin c q remove coll = .ok (b, c') → Session ctr G k K n re isq c'

/-- **C54.**  In every session of appends of normalised operations and measurements the state has trace 1, so the
probabilities with which `measure` draws are those of a distribution. -/
theorem c54_session_partial (hctr : Evaluates ctr) (hG : G.Sound) (hK : n + 2 + k ≤ K) {re isq : R → R} {c : Circ (Oper R)}
    (h : Session ctr G k K n re isq c) : Prepares ctr k (n + 1) c ∧ traceOf (circOuts (shapes ctr (n + 1)) c) (rho ctr (n + 1) c) = 1 ∧
      ∀ q ∈ circOuts (shapes ctr (n + 1)) c,
        probOf (circOuts (shapes ctr (n + 1)) c) (rho ctr (n + 1) c) q 0 + probOf (circOuts (shapes ctr (n + 1)) c) (rho ctr (n + 1) c) q 1 = 1 := by
  suffices hs : Prepares ctr k (n + 1) c ∧ traceOf (circOuts (shapes ctr (n + 1)) c) (rho ctr (n + 1) c) = 1 from
    ⟨hs.1, hs.2, fun q hq => by rw [← trace_split _ hq, hs.2]⟩
  induction h with
  | empty => exact ⟨prepares_nil k _, c54_trace hctr (prepares_nil k _) fun p hp => by cases hp⟩
  | append _ ha hp hn ih => exact ⟨hp, (c54_append hctr ih.1 ha hp hn).trans ih.2⟩
  | @measure c c' N q b remove coll coin _ hN hq hre hisq hb hm ih =>
    obtain ⟨c1, h1, h2, -⟩ := c53_measure_partial (remove := remove) (coll := coll) (isq := isq) hctr hG ih.1 hK hN hq hb
    obtain ⟨c2, k1, k2, -⟩ := c53_normalised_partial (remove := remove) (coll := coll) hctr hG ih.1 hK hN hq ih.2 hre hisq hb
    rw [hm] at h1 k1
    cases h1
    cases k1
    exact ⟨h2, k2⟩

end Ring

/-- `c54_trace` and `c54_probs` for the circuit `exPrep` of C53: an entangled pair, a state and dephasing. -/
theorem exPrep_normal : ∀ p ∈ exPrep, Normal evalAll 1 p.2.op := by
  intro p hp
  simp only [exPrep, List.mem_cons, List.not_mem_nil, or_false] at hp
  rcases hp with rfl | rfl | rfl
  · rw [Normal]
    intro x x' hx hx'
    obtain rfl := List.length_eq_zero_iff.1 hx.1
    obtain rfl := List.length_eq_zero_iff.1 hx'.1
    show sumIdx [2, 2] _ = _
    simp only [exPair, TVal.tot]
    decide +kernel
  · show Normal evalAll 1 (compState 1)
    unfold compState
    rw [Normal]
    intro x x' hx hx'
    obtain rfl := List.length_eq_zero_iff.1 hx.1
    obtain rfl := List.length_eq_zero_iff.1 hx'.1
    show sumIdx [2] _ = _
    decide +kernel
  · rw [Normal]
    intro x x' hx hx'
    have hb : ∀ {y : List Nat}, Bits y 1 → y = [0] ∨ y = [1] := fun {y} hy => by
      match y, hy with
      | [a], hy =>
        have := hy.2 a (by simp)
        have : a = 0 ∨ a = 1 := by omega
        rcases this with rfl | rfl <;> simp
    show sumIdx [2] _ = _
    simp only [exDeph, TVal.tot]
    rcases hb hx with rfl | rfl <;> rcases hb hx' with rfl | rfl <;> decide +kernel

example : probOf [0, 1, 2] (rho evalAll 1 exPrep) 0 0 + probOf [0, 1, 2] (rho evalAll 1 exPrep) 0 1 = 1 := by
  have := c54_probs evalAll_evaluates exPrep_ok exPrep_normal (q := 0) (by rw [exPrep_outs]; simp)
  rwa [exPrep_outs] at this

/-- The circuit after appending the entangled pair to the empty circuit. -/
def exPairCirc : Circ (Oper ℚ) := [(Circ.autoName (1 + Circ.maxTime ([] : Circ (Oper ℚ))) [0, 1], ⟨.pure exPair none, 1 + Circ.maxTime ([] : Circ (Oper ℚ)), [0, 1]⟩)]

theorem exPairCirc_ok : Prepares evalAll 0 1 exPairCirc := by
  refine ⟨?_, ?_, ?_, by decide⟩
  · rw [DensBuilt]
    refine ⟨by decide, ⟨_, rfl⟩, fun p hp => ?_⟩
    obtain rfl := List.mem_singleton.1 hp
    refine ⟨?_, by decide, _, rfl, rfl⟩
    rw [DensBuilt, Built]
    exact ⟨⟨exPair_ok, fun h => by cases h⟩, TVal.flat_ten _ _⟩
  · rw [WholeData]
    intro p hp
    obtain rfl := List.mem_singleton.1 hp
    trivial
  · intro n r h t qs e
    obtain ⟨rfl, rfl⟩ := Prod.mk.inj (List.mem_singleton.1 h)
    exact (Circ.autoName_inj e).1.symm

/-- The hypotheses of `c54_session_partial` are met: the entangled pair is appended, the qubit 0 is measured, the state
has trace 1. -/
example : ∃ c', measure evalAll stdGlue 2 1 id (fun _ => 5 / 4) (fun _ => .ok true) exPairCirc 0 true false = .ok (true, c') ∧
    traceOf (circOuts (shapes evalAll 1) c') (rho evalAll 1 c') = 1 := by
  have s1 : Session evalAll stdGlue 0 2 0 id (fun _ => (5 / 4 : ℚ)) exPairCirc :=
    .append (qs := [0, 1]) .empty rfl exPairCirc_ok (by simpa [exPrep] using exPrep_normal _ (List.mem_cons_self ..))
  have o : circOuts (shapes evalAll 1) exPairCirc = [0, 1] := by decide
  have hp : probOf [0, 1] (rho evalAll 1 exPairCirc) 0 1 = 16 / 25 := by decide +kernel
  obtain ⟨c', h1, -⟩ := c53_measure_partial (N := 2) (q := 0) (re := id) (isq := fun _ => (5 / 4 : ℚ)) (coin := fun _ => .ok true) (b := true)
    (remove := true) (coll := false) evalAll_evaluates stdGlue_sound exPairCirc_ok (le_refl 2) (by decide) (by rw [o]; decide) rfl
  refine ⟨c', h1, (c54_session_partial evalAll_evaluates stdGlue_sound (le_refl 2) (.measure (N := 2) s1 (by decide) (by rw [o]; decide) rfl
    (fun p e => ?_) rfl h1)).2.1⟩
  rw [o] at e
  simp only [if_true] at e
  rw [e, hp]
  decide +kernel

/-- The hypotheses of `c54_append` are met: dephasing of qubit 1. -/
example : ∃ c', exPairCirc.append (shapes evalAll 1) (.imm exDeph [[.i, .o]]) [1] = .ok c' ∧ Prepares evalAll 0 1 c' ∧
    traceOf (circOuts (shapes evalAll 1) c') (rho evalAll 1 c') = 1 := by
  obtain ⟨c', h⟩ : ∃ c', exPairCirc.append (shapes evalAll 1) (.imm exDeph [[.i, .o]]) [1] = .ok c' := ⟨_, rfl⟩
  have hp : Prepares evalAll 0 1 c' := by
    have hD : DensBuilt evalAll 0 1 (.imm exDeph [[.i, .o]]) := exPrep_ok.ops _ (List.mem_cons_of_mem _ (List.mem_cons_of_mem _ (List.mem_cons_self ..)))
    have hW : WholeData 1 (.imm exDeph [[.i, .o]]) := exPrep_ok.wholes _ (List.mem_cons_of_mem _ (List.mem_cons_of_mem _ (List.mem_cons_self ..)))
    cases h
    refine ⟨?_, ?_, ?_, by decide⟩
    · rw [DensBuilt]
      refine ⟨by decide, ⟨_, rfl⟩, fun p hp => ?_⟩
      rcases List.mem_cons.1 hp with rfl | hp
      · exact ⟨exPairCirc_ok.ops _ (List.mem_cons_self ..), by decide, _, rfl, rfl⟩
      · obtain rfl := List.mem_singleton.1 hp
        exact ⟨hD, by decide, _, rfl, rfl⟩
    · rw [WholeData]
      intro p hp
      rcases List.mem_cons.1 hp with rfl | hp
      · trivial
      · obtain rfl := List.mem_singleton.1 hp
        exact hW
    · intro n r h t qs e
      rcases List.mem_cons.1 h with h | h
      · exact exPairCirc_ok.stamped n r (List.mem_singleton.2 h) t qs e
      · obtain ⟨rfl, rfl⟩ := Prod.mk.inj (List.mem_singleton.1 h)
        exact (Circ.autoName_inj e).1.symm
  refine ⟨c', h, hp, ?_⟩
  rw [c54_append evalAll_evaluates exPairCirc_ok h hp (exPrep_normal (.str "n", _) (List.mem_cons_of_mem _ (List.mem_cons_of_mem _ (List.mem_cons_self ..))))]
  exact c54_trace evalAll_evaluates exPairCirc_ok fun p hp => by
    obtain rfl := List.mem_singleton.1 hp
    simpa [exPrep] using exPrep_normal _ (List.mem_cons_self ..)

/-- The hypotheses of `c54_unitary`, `c54_pure_state`, `c54_state` and `c54_kraus_partial` are met by a rotation, a state on two qubits, a
mixture and the operators of dephasing. -/
example : (∃ op, unitary 1 (⟨[2, 2], fun l => if l = [0, 1] then -(4 / 5) else if l = [1, 0] then 4 / 5 else 3 / 5⟩ : Arr ℚ) = .ok op ∧
      ∀ n, Built evalAll (n + 1) false op ∧ Normal evalAll (n + 1) op) ∧
    (∃ op, pureState 2 (⟨[4], fun l => if l = [1] then 4 / 5 else if l = [2] then -(3 / 5) else 0⟩ : Arr ℚ) = .ok op ∧
      ∀ n, Built evalAll (n + 1) false op ∧ Normal evalAll (n + 1) op) ∧
    (∃ op, state 1 (⟨[2, 2], fun l => if l = [0, 0] then 1 / 3 else if l = [1, 1] then 2 / 3 else 0⟩ : Arr ℚ) = .ok op ∧
      ∀ n, DensBuilt evalAll 0 (n + 1) op ∧ Normal evalAll (n + 1) op) ∧
    ∃ op, fromKraus [[.i, .o]] ([⟨[2, 2], fun l => if l = [0, 0] then 1 else 0⟩, ⟨[2, 2], fun l => if l = [1, 1] then (1 : ℚ) else 0⟩].map (.array false)) = .ok op ∧
      ∀ n, DensBuilt evalAll 0 (n + 1) op ∧ Normal evalAll (n + 1) op := by
  refine ⟨c54_unitary rfl (by decide +kernel), c54_pure_state rfl (by decide +kernel), c54_state rfl (by decide +kernel), c54_kraus_partial (by decide) ?_ ?_⟩
  · intro a ha
    rcases List.mem_cons.1 ha with rfl | ha
    · exact Or.inl rfl
    · rw [List.mem_singleton.1 ha]; exact Or.inl rfl
  · intro x x' hx hx'
    have hb : ∀ {y : List Nat}, Bits y 1 → y = [0] ∨ y = [1] := fun {y} hy => by
      match y, hy with
      | [a], hy =>
        have := hy.2 a (by simp)
        have : a = 0 ∨ a = 1 := by omega
        rcases this with rfl | rfl <;> simp
    rcases hb hx with rfl | rfl <;> rcases hb hx' with rfl | rfl <;> decide +kernel

end Oper

end Verif
