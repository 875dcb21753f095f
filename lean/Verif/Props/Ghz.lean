import Verif.Model.Ghz
import Verif.Props.Appended
import Mathlib.Tactic.IntervalCases
import Mathlib.Data.List.GetD
/-!
# C64: the example `GHZState`
-/

namespace Verif

namespace Oper

open Circ

variable {ctr : TVal ℂ → Except Err (Arr ℂ)}

/-- The operations of `GHZState(m + 1)` in order. -/
noncomputable def ghzOps (m : Nat) : List (Oper ℂ × List Int) :=
  [(zeroState, [0]), (hGateOp, [0])] ++ (List.range m).flatMap fun i : Nat => [(zeroState, [(i : Int) + 1]), (cnotOp, [0, (i : Int) + 1])]

theorem ghzLoop_eq (sh : ShapeFn (Oper ℂ)) : ∀ (l : List Nat) (a : Circ (Oper ℂ)), ghzLoop sh l a =
    (l.flatMap fun i : Nat => [(zeroState, [(i : Int) + 1]), (cnotOp, [0, (i : Int) + 1])]).foldlM (fun c x => append sh c x.1 x.2) a := by
  intro l
  induction l with
  | nil => intro a; rfl
  | cons i l ih =>
    intro a
    simp only [ghzLoop, List.flatMap_cons, List.cons_append, List.nil_append, List.foldlM_cons]
    cases h1 : append sh a zeroState [(i : Int) + 1] with
    | error e => rfl
    | ok a1 =>
      show _ = (append sh a1 cnotOp [0, (i : Int) + 1] >>= _)
      dsimp only
      cases h2 : append sh a1 cnotOp [0, (i : Int) + 1] with
      | error e => rfl
      | ok a2 => exact ih a2

theorem ghzState_eq (sh : ShapeFn (Oper ℂ)) (n : Nat) : ghzState sh n = (ghzOps (n - 1)).foldlM (fun c x => append sh c x.1 x.2) [] := by
  unfold ghzState ghzOps
  simp only [List.cons_append, List.nil_append, List.foldlM_cons]
  cases h1 : append sh [] zeroState [0] with
  | error e => rfl
  | ok a1 =>
    show _ = (append sh a1 hGateOp [0] >>= _)
    dsimp only
    cases h2 : append sh a1 hGateOp [0] with
    | error e => rfl
    | ok a2 => exact ghzLoop_eq sh _ a2

theorem mem_ghzOps {m : Nat} {x : Oper ℂ × List Int} (h : x ∈ ghzOps m) : (∃ q, x = (zeroState, [q])) ∨ x = (hGateOp, [0]) ∨ ∃ q : Int, 0 < q ∧ x = (cnotOp, [0, q]) := by
  simp only [ghzOps, List.mem_append, List.mem_cons, List.not_mem_nil, or_false, List.mem_flatMap, List.mem_range] at h
  rcases h with (rfl | rfl) | ⟨i, _, rfl | rfl⟩
  · exact Or.inl ⟨_, rfl⟩
  · exact Or.inr (Or.inl rfl)
  · exact Or.inl ⟨_, rfl⟩
  · exact Or.inr (Or.inr ⟨_, by omega, rfl⟩)

theorem ghzOps_appendable (m n : Nat) : ∀ x ∈ ghzOps m, Appendable (shapes ctr (n + 1)) x := by
  intro x hx
  rcases mem_ghzOps hx with ⟨q, rfl⟩ | rfl | ⟨q, hq, rfl⟩
  · exact ⟨[[.o]], rfl, rfl, by simp⟩
  · exact ⟨[[.i, .o]], rfl, rfl, by simp⟩
  · exact ⟨[[.c], [.i, .o]], rfl, rfl, by simp; omega⟩

theorem half_real : star ((Real.sqrt 0.5 : ℝ) : ℂ) = (Real.sqrt 0.5 : ℝ) := Complex.conj_ofReal _

theorem zeroState_built (n : Nat) : Built ctr (n + 1) false zeroState := by
  unfold zeroState
  rw [Built]
  refine ⟨⟨by decide, rfl, ?_, ?_, fun h => by cases h⟩, fun h => by cases h⟩
  · unfold zeroStateRec
    rw [TVal.Whole]
    trivial
  · intro b k h
    simp only [zeroStateRec, Option.some.injEq, Prod.mk.injEq] at h
    obtain ⟨rfl, rfl⟩ := h
    refine ⟨by omega, rfl, fun x _ => ?_⟩
    show (TVal.tot (.ten (some _)) [x] : ℂ) = _
    rw [TVal.tot]
    simp

theorem hGate_entry (n : Nat) {a b : Nat} (ha : a < 2) (hb : b < 2) :
    matrix ctr (n + 1) hGateOp [a, b] = if a = 1 ∧ b = 1 then -(Real.sqrt 0.5 : ℂ) else (Real.sqrt 0.5 : ℂ) := by
  show (TVal.tot (.ten (some _)) [a, b] : ℂ) = _
  rw [TVal.tot]
  interval_cases a <;> interval_cases b <;> simp [Gate.hGate]

theorem cnot_entry (n : Nat) {a b c d : Nat} (ha : a < 2) (hb : b < 2) (hc : c < 2) (hd : d < 2) :
    matrix ctr (n + 1) cnotOp [a, b, c, d] = if a = c ∧ b = (c + d) % 2 then 1 else 0 := by
  show blockMat (TVal.tot (.ten (some _))) _ [a, b, c, d] = _
  have h1 : outPlaces [[Letter.c], [.i, .o]] = [0, 1] := by decide
  have h2 : inPlaces [[Letter.c], [.i, .o]] = [0, 1] := by decide
  have h3 : ctrlPlaces [[Letter.c], [.i, .o]] = [0] := by decide
  simp only [blockMat, h1, h2, h3, TVal.tot]
  interval_cases a <;> interval_cases b <;> interval_cases c <;> interval_cases d <;> simp [readAt, Gate.cnotTensor, List.idxOf, List.findIdx, List.findIdx.go]

theorem single_bit {x : List Nat} (h : Bits x 1) : ∃ a, a < 2 ∧ x = [a] := by
  obtain ⟨h1, h2⟩ := h
  match x, h1 with
  | [a], _ => exact ⟨a, h2 a (by simp), rfl⟩

theorem hGate_built (n : Nat) : Built ctr (n + 1) false hGateOp := by
  have he := @hGate_entry ctr n
  unfold hGateOp at he ⊢
  rw [Built]
  refine ⟨⟨by decide, rfl, ?_, fun b k h => (by cases h), fun _ => ⟨rfl, ?_⟩⟩, fun h => by cases h⟩
  · rw [TVal.Whole]; trivial
  · intro x y hx hy hxb hyb
    obtain ⟨a, ha, rfl⟩ := single_bit ⟨hx, hxb⟩
    obtain ⟨b, hb, rfl⟩ := single_bit ⟨hy, hyb⟩
    have h1 := he ha hb
    have h2 := he hb ha
    show TVal.tot _ [a, b] = star (TVal.tot _ [b, a])
    refine h1.trans (Eq.trans ?_ (congrArg star h2).symm)
    interval_cases a <;> interval_cases b <;> simp

theorem cnot_built (n : Nat) : Built ctr (n + 1) false cnotOp := by
  have he := @cnot_entry ctr n
  unfold cnotOp at he ⊢
  rw [Built]
  refine ⟨⟨by decide, rfl, ?_, fun _ => ⟨rfl, ?_⟩⟩, fun h => by cases h⟩
  · rw [TVal.Whole]; trivial
  · intro x y hx hy hxb hyb
    match x, hx with
    | [a, b], _ =>
      match y, hy with
      | [c, d], _ =>
        have ha := hxb a (by simp)
        have hb := hxb b (by simp)
        have hc := hyb c (by simp)
        have hd := hyb d (by simp)
        refine (he ha hb hc hd).trans (Eq.trans ?_ (congrArg star (he hc hd ha hb)).symm)
        interval_cases a <;> interval_cases b <;> interval_cases c <;> interval_cases d <;> simp

theorem ghzOps_built (m n : Nat) : ∀ x ∈ ghzOps m, Built ctr (n + 1) false x.1 := by
  intro x hx
  rcases mem_ghzOps hx with ⟨q, rfl⟩ | rfl | ⟨q, hq, rfl⟩
  · exact zeroState_built n
  · exact hGate_built n
  · exact cnot_built n

theorem ghzOps_succ (m : Nat) : ghzOps (m + 1) = ghzOps m ++ [(zeroState, [(m : Int) + 1]), (cnotOp, [0, (m : Int) + 1])] := by
  simp [ghzOps, List.range_succ]

/-- On each of the qubits `0 … m` the ends alternate from an output to an output; other qubits are not touched. -/
theorem ghzOps_word (m n : Nat) (q : Int) :
    Connectable ((ghzOps m).flatMap fun x => portsAt (shapeD (shapes ctr (n + 1)) x.1) x.2 q) ∧
    if 0 ≤ q ∧ q ≤ m then
      ((ghzOps m).flatMap fun x => portsAt (shapeD (shapes ctr (n + 1)) x.1) x.2 q).head? = some .out ∧
      ((ghzOps m).flatMap fun x => portsAt (shapeD (shapes ctr (n + 1)) x.1) x.2 q).getLast? = some .out
    else ((ghzOps m).flatMap fun x => portsAt (shapeD (shapes ctr (n + 1)) x.1) x.2 q) = [] := by
  have e1 : ∀ k, portsAt (shapeD (shapes ctr (n + 1)) zeroState) [k] q = if q = k then [.out] else [] := by
    intro k
    show portsAt [[.o]] [k] q = _
    by_cases h : k = q
    · subst h; simp [portsAt, Letter.ports]
    · simp [portsAt, h, Ne.symm h]
  have e2 : portsAt (shapeD (shapes ctr (n + 1)) hGateOp) [0] q = if q = 0 then [.inp, .out] else [] := by
    show portsAt [[.i, .o]] [0] q = _
    by_cases h : (0 : Int) = q
    · subst h; simp [portsAt, Letter.ports]
    · simp [portsAt, h, Ne.symm h]
  have e3 : ∀ k : Int, 0 < k → portsAt (shapeD (shapes ctr (n + 1)) cnotOp) [0, k] q = if q = 0 ∨ q = k then [.inp, .out] else [] := by
    intro k hk
    show portsAt [[.c], [.i, .o]] [0, k] q = _
    by_cases h : (0 : Int) = q
    · subst h
      have : ¬ k = 0 := by omega
      simp [portsAt, Letter.ports, this]
    · by_cases h' : k = q
      · subst h'; simp [portsAt, Letter.ports, h]
      · simp [portsAt, h, Ne.symm h, h', Ne.symm h']
  induction m with
  | zero =>
    have : ((ghzOps 0).flatMap fun x => portsAt (shapeD (shapes ctr (n + 1)) x.1) x.2 q) = if q = 0 then [.out, .inp, .out] else [] := by
      simp only [ghzOps, List.range_zero, List.flatMap_nil, List.append_nil, List.flatMap_cons, e1, e2]
      split <;> rfl
    rw [this]
    by_cases h : q = 0
    · subst h
      exact ⟨by simp [Connectable], by simp⟩
    · rw [if_neg h, if_neg (by simp; omega)]
      exact ⟨by simp [Connectable], rfl⟩
  | succ m ih =>
    rw [ghzOps_succ, List.flatMap_append]
    simp only [List.flatMap_cons, List.flatMap_nil, List.append_nil, e1, e3 ((m : Int) + 1) (by omega)]
    obtain ⟨h1, h2⟩ := ih
    generalize (ghzOps m).flatMap (fun x => portsAt (shapeD (shapes ctr (n + 1)) x.1) x.2 q) = w at h1 h2
    by_cases h0 : q = 0
    · subst h0
      rw [if_pos (by omega)] at h2
      rw [if_neg (by omega), if_pos (by simp), if_pos (by omega)]
      simp only [List.nil_append]
      refine ⟨List.IsChain.append h1 (by simp) ?_, by simp [h2.1], by simp⟩
      intro x hx y hy
      rw [h2.2] at hx
      simp only [Option.mem_def, Option.some.injEq, List.head?_cons] at hx hy
      rw [← hx, ← hy]
      decide
    · by_cases hm : q = (m : Int) + 1
      · rw [if_neg (by omega)] at h2
        subst h2
        rw [if_pos hm, if_pos (Or.inr hm), if_pos (by push_cast; omega)]
        exact ⟨by simp [Connectable], by simp, by simp⟩
      · rw [if_neg hm, if_neg (by simp [h0, hm])]
        simp only [List.append_nil]
        refine ⟨h1, ?_⟩
        by_cases hq : 0 ≤ q ∧ q ≤ m
        · rw [if_pos hq] at h2
          rw [if_pos (by push_cast; omega)]
          exact h2
        · rw [if_neg hq] at h2
          rw [if_neg (by push_cast; omega)]
          exact h2

/-- The amplitudes of the GHZ state on the qubits `0 … m`. -/
noncomputable def ghzAmp (m : Nat) (w : Int → Nat) : ℂ := if ∀ i : Nat, i < m → w (i + 1) = w 0 then (Real.sqrt 0.5 : ℂ) else 0

theorem ghz_evolve (m n : Nat) (v : Int → Nat) : ∀ w, Good w →
    evolve ((ghzOps m).map fun x => ⟨matrix ctr (n + 1) x.1, inQubits (shapeD (shapes ctr (n + 1)) x.1) x.2, outQubits (shapeD (shapes ctr (n + 1)) x.1) x.2⟩)
      (basisState [] v) w = ghzAmp m w := by
  have z : ∀ (q : Int) (Ψ : (Int → Nat) → ℂ) (w : Int → Nat), Act.apply ⟨matrix ctr (n + 1) zeroState,
      inQubits (shapeD (shapes ctr (n + 1)) zeroState) [q], outQubits (shapeD (shapes ctr (n + 1)) zeroState) [q]⟩ Ψ w = if w q = 0 then Ψ w else 0 := by
    intro q Ψ w
    have h1 : inQubits (shapeD (shapes ctr (n + 1)) zeroState) [q] = [] := by
      show inQubits [[.o]] [q] = []
      simp [inQubits, portsAt, Letter.ports]
    have h2 : outQubits (shapeD (shapes ctr (n + 1)) zeroState) [q] = [q] := by
      show outQubits [[.o]] [q] = [q]
      simp [outQubits, portsAt, Letter.ports]
    unfold Act.apply
    rw [h1, h2, sumOver_nil]
    show (TVal.tot (.ten (some _)) ([q].map w ++ [].map w) : ℂ) * Ψ w = _
    rw [TVal.tot]
    by_cases h : w q = 0 <;> simp [h]
  induction m with
  | zero =>
    intro w hw
    simp only [ghzOps, List.range_zero, List.flatMap_nil, List.append_nil, List.map_cons, List.map_nil, evolve]
    have h1 : inQubits (shapeD (shapes ctr (n + 1)) hGateOp) [0] = [0] := rfl
    have h2 : outQubits (shapeD (shapes ctr (n + 1)) hGateOp) [0] = [0] := rfl
    unfold Act.apply
    rw [h1, h2]
    have hz := z 0 (basisState [] v)
    unfold Act.apply at hz
    simp only [hz]
    rw [sumOver_cons]
    simp only [sumOver_nil, bits, Finset.sum_range_succ, Finset.sum_range_zero, Function.update_self, zero_add]
    have h3 := hw 0
    have e : ∀ b, b < 2 → matrix ctr (n + 1) hGateOp ([0].map w ++ [0].map (Function.update w 0 b)) = _ := fun b hb => by
      simpa using hGate_entry (ctr := ctr) n h3 hb
    rw [e 0 (by omega), e 1 (by omega)]
    simp [basisState, ghzAmp]
  | succ m ih =>
    intro w hw
    rw [ghzOps_succ, List.map_append, evolve_append]
    simp only [List.map_cons, List.map_nil, evolve]
    generalize evolve (R := ℂ) _ (basisState [] v) = Ψ at ih ⊢
    have h1 : inQubits (shapeD (shapes ctr (n + 1)) cnotOp) [0, (m : Int) + 1] = [0, (m : Int) + 1] := by
      have h : ¬ (m : Int) + 1 = 0 := by omega
      have h' : ¬ (0 : Int) = m + 1 := by omega
      show inQubits [[.c], [.i, .o]] [0, (m : Int) + 1] = _
      simp [inQubits, portsAt, Letter.ports, h, h']
    have h2 : outQubits (shapeD (shapes ctr (n + 1)) cnotOp) [0, (m : Int) + 1] = [0, (m : Int) + 1] := by
      have h : ¬ (m : Int) + 1 = 0 := by omega
      have h' : ¬ (0 : Int) = m + 1 := by omega
      show outQubits [[.c], [.i, .o]] [0, (m : Int) + 1] = _
      simp [outQubits, portsAt, Letter.ports, h, h']
    have hz := z ((m : Int) + 1) Ψ
    have hne : (0 : Int) ≠ m + 1 := by omega
    have hup : ∀ a b, Function.update (Function.update w 0 a) ((m : Int) + 1) b ((m : Int) + 1) = b := fun a b => Function.update_self _ _ _
    have hup0 : ∀ a b, Function.update (Function.update w 0 a) ((m : Int) + 1) b 0 = a := fun a b => by
      rw [Function.update_of_ne hne, Function.update_self]
    have hg : ∀ a b, a < 2 → b < 2 → Good (Function.update (Function.update w 0 a) ((m : Int) + 1) b) := by
      intro a b ha hb q
      unfold Function.update
      split
      · subst_vars; exact hb
      · split
        · subst_vars; exact ha
        · exact hw q
    have e : ∀ a b, a < 2 → b < 2 → matrix ctr (n + 1) cnotOp ([0, (m : Int) + 1].map w ++
        [0, (m : Int) + 1].map (Function.update (Function.update w 0 a) ((m : Int) + 1) b)) =
        if w 0 = a ∧ w ((m : Int) + 1) = (a + b) % 2 then 1 else 0 := by
      intro a b ha hb
      simp only [List.map_cons, List.map_nil, List.cons_append, List.nil_append, hup, hup0]
      exact cnot_entry n (hw 0) (hw _) ha hb
    generalize hact : Act.apply (R := ℂ) _ Ψ = Ψ1 at hz ⊢
    unfold Act.apply
    rw [h1, h2, sumOver_cons]
    simp only [sumOver_cons, sumOver_nil, bits, Finset.sum_range_succ, Finset.sum_range_zero, zero_add, hz, hup]
    rw [e 0 0 (by omega) (by omega), e 0 1 (by omega) (by omega), e 1 0 (by omega) (by omega), e 1 1 (by omega) (by omega)]
    rw [ih _ (hg 0 0 (by omega) (by omega)), ih _ (hg 1 0 (by omega) (by omega))]
    have hA : ∀ a, ghzAmp m (Function.update (Function.update w 0 a) ((m : Int) + 1) 0) = if ∀ i : Nat, i < m → w (i + 1) = a then (Real.sqrt 0.5 : ℂ) else 0 := by
      intro a
      unfold ghzAmp
      refine if_congr (forall_congr' fun i => forall_congr' fun hi => ?_) rfl rfl
      rw [hup0, Function.update_of_ne (by omega), Function.update_of_ne (by omega)]
    rw [hA, hA]
    have hS : ghzAmp (m + 1) w = if (∀ i : Nat, i < m → w (i + 1) = w 0) ∧ w ((m : Int) + 1) = w 0 then (Real.sqrt 0.5 : ℂ) else 0 := by
      unfold ghzAmp
      refine if_congr ⟨fun h => ⟨fun i hi => h i (by omega), h m (by omega)⟩, fun h i hi => ?_⟩ rfl rfl
      by_cases hi' : i = m
      · subst hi'; exact h.2
      · exact h.1 i (by omega)
    rw [hS]
    have h3 := hw 0
    generalize w 0 = a at h3
    generalize w ((m : Int) + 1) = b
    interval_cases a
    · by_cases hb : b = 0 <;> simp [hb]
    · by_cases hb : b = 1 <;> simp [hb]

theorem ghz_outs (m k : Nat) : OutputsOf (shapes ctr (k + 1)) (ghzOps m) ((List.range (m + 1)).map fun i : Nat => (i : Int)) := by
  refine ⟨?_, fun q => ?_⟩
  · rw [List.pairwise_map]
    exact List.pairwise_lt_range.imp fun h => by omega
  · have := (ghzOps_word (ctr := ctr) m k q).2
    rw [List.mem_map]
    by_cases hq : 0 ≤ q ∧ q ≤ m
    · rw [if_pos hq] at this
      refine ⟨fun _ => this.2, fun _ => ⟨q.toNat, by rw [List.mem_range]; omega, by omega⟩⟩
    · rw [if_neg hq] at this
      rw [this]
      refine ⟨fun ⟨i, hi, he⟩ => ?_, fun h => by simp at h⟩
      rw [List.mem_range] at hi
      omega

theorem ghz_ins (m k : Nat) : InputsOf (shapes ctr (k + 1)) (ghzOps m) [] := by
  refine ⟨List.Pairwise.nil, fun q => ?_⟩
  have := (ghzOps_word (ctr := ctr) m k q).2
  refine ⟨fun h => by simp at h, fun h => ?_⟩
  split at this
  · rw [this.1] at h; simp at h
  · rw [this] at h; simp at h

/-- **C64**: `GHZState(n)` builds a valid circuit without inputs, whose `tensor_pure` is the GHZ state: amplitude `√½` where all
qubits agree, 0 elsewhere. -/
theorem c64_ghz (hctr : Evaluates ctr) (m k : Nat) : ∃ c t, ghzState (shapes ctr (k + 1)) (m + 1) = .ok c ∧ Built ctr (k + 2) false (.circ c) ∧
    (iface ctr (k + 2)).tensor (.circ c) = .ok t ∧
    ∀ u : Int → Nat, Good u → t.tot ((List.range (m + 1)).map fun i : Nat => u i) = ghzAmp m u := by
  obtain ⟨c, t, h1, h2, h3, h4⟩ := c63_tensor hctr (ghzOps_built m k) (ghzOps_appendable m k) (fun q => (ghzOps_word m k q).1) (ghz_outs m k) (ghz_ins m k)
  refine ⟨c, t, by rw [ghzState_eq]; exact h1, h2, h3, fun u hu => ?_⟩
  have := h4 u u hu hu
  rw [ghz_evolve m k u u hu] at this
  simpa [List.map_map, Function.comp_def] using this

/-- **C64**: the entries of `tensor_pure` of `GHZState(n)`, `n ≥ 1`, by bit strings: `√½` on a string of equal bits, 0 on all others. -/
theorem c64_entries (hctr : Evaluates ctr) (m k : Nat) : ∃ c t, ghzState (shapes ctr (k + 1)) (m + 1) = .ok c ∧
    (iface ctr (k + 2)).tensor (.circ c) = .ok t ∧
    t.tot (List.replicate (m + 1) 0) = (Real.sqrt 0.5 : ℂ) ∧ t.tot (List.replicate (m + 1) 1) = (Real.sqrt 0.5 : ℂ) ∧
    ∀ x : List Nat, Bits x (m + 1) → x ≠ List.replicate (m + 1) 0 → x ≠ List.replicate (m + 1) 1 → t.tot x = 0 := by
  obtain ⟨c, t, h1, -, h3, h4⟩ := c64_ghz hctr m k
  have rd : ∀ x : List Nat, Bits x (m + 1) → t.tot x = ghzAmp m fun q => x.getD q.toNat 0 := by
    intro x hx
    have := h4 (fun q => x.getD q.toNat 0) (fun q => by
      dsimp only
      by_cases h : q.toNat < x.length
      · rw [List.getD_eq_getElem _ _ h]; exact hx.2 _ (List.getElem_mem h)
      · rw [List.getD_eq_default _ _ (by omega)]; omega)
    rw [← this]
    congr 1
    refine List.ext_getElem (by simp [hx.1]) fun i hi _ => ?_
    simp [hi]
  refine ⟨c, t, h1, h3, ?_, ?_, fun x hx h0 h1 => ?_⟩
  · rw [rd _ ⟨by simp, fun a ha => by rw [List.eq_of_mem_replicate ha]; omega⟩]
    unfold ghzAmp
    rw [if_pos]
    intro i hi
    have : ((i : Int) + 1).toNat = i + 1 := by omega
    simp [List.getD_eq_getElem?_getD, this, hi]
  · rw [rd _ ⟨by simp, fun a ha => by rw [List.eq_of_mem_replicate ha]; omega⟩]
    unfold ghzAmp
    rw [if_pos]
    intro i hi
    have : ((i : Int) + 1).toNat = i + 1 := by omega
    simp [List.getD_eq_getElem?_getD, this, hi]
  · rw [rd x hx]
    unfold ghzAmp
    rw [if_neg]
    intro hc
    have hall : x = List.replicate (m + 1) (x.getD 0 0) := by
      refine List.ext_getElem (by simp [hx.1]) fun i hi _ => ?_
      rw [List.getElem_replicate]
      cases i with
      | zero => simp [hi]
      | succ i =>
        have := hc i (by have := hx.1; omega)
        have e : ((i : Int) + 1).toNat = i + 1 := by omega
        simp only [e, Int.toNat_zero] at this
        rw [← this, List.getD_eq_getElem _ _ hi]
    have hb : x.getD 0 0 < 2 := by
      rw [List.getD_eq_getElem _ _ (by rw [hx.1]; omega)]
      exact hx.2 _ (List.getElem_mem _)
    generalize x.getD 0 0 = b at hall hb
    interval_cases b
    · exact h0 hall
    · exact h1 hall

/-- The hypotheses of C63 and C64 are met: the network of `GHZState(10)`, and its amplitude at a string whose bits differ. -/
example : ∃ c t, ghzState (shapes evalAll 1) 10 = .ok c ∧ (iface evalAll 2).tensor (.circ c) = .ok t ∧
    t.tot (List.replicate 10 1) = (Real.sqrt 0.5 : ℂ) ∧ t.tot [0, 1, 0, 0, 0, 0, 0, 0, 0, 0] = 0 := by
  obtain ⟨c, t, h1, h2, -, h3, h4⟩ := c64_entries (ctr := evalAll) evalAll_evaluates 9 0
  exact ⟨c, t, h1, h2, h3, h4 _ ⟨rfl, by simp⟩ (by decide) (by decide)⟩

theorem ghzOps_dens (m n k : Nat) : ∀ x ∈ ghzOps m, DensBuilt ctr k (n + 1) x.1 := by
  intro x hx
  have hb := ghzOps_built (ctr := ctr) m n x hx
  rcases mem_ghzOps hx with ⟨q, rfl⟩ | rfl | ⟨q, hq, rfl⟩
  · unfold zeroState at hb ⊢; rw [DensBuilt]; exact ⟨hb, TVal.flat_ten _ _⟩
  · unfold hGateOp at hb ⊢; rw [DensBuilt]; exact ⟨hb, TVal.flat_ten _ _⟩
  · unfold cnotOp at hb ⊢; rw [DensBuilt]; exact ⟨hb, TVal.flat_ten _ _⟩

/-- The hypotheses of `c63_density` are met by the operations of `GHZState(3)` with a density matrix prepared on another qubit. -/
example : ∃ c d, List.foldlM (fun c (x : Oper ℂ × List Int) => append (shapes evalAll 1) c x.1 x.2) []
      (ghzOps 2 ++ [(Oper.imm (.ten (some ⟨[2, 2], fun idx => if idx = [0, 0] then 1 else 0⟩)) [[.o]], [7])]) = .ok c ∧ density evalAll stdGlue 2 2 (.circ c) = .ok d := by
  have hn : ∀ q : Int, portsAt (shapeD (shapes evalAll 1) (.imm (.ten (some ⟨[2, 2], fun idx => if idx = [0, 0] then (1 : ℂ) else 0⟩)) [[.o]])) [7] q =
      if q = 7 then [.out] else [] := by
    intro q
    show portsAt [[.o]] [7] q = _
    by_cases h : (7 : Int) = q
    · subst h; rfl
    · simp [portsAt, h, Ne.symm h]
  obtain ⟨c, d, h1, -, h2, -⟩ := c63_density (ctr := evalAll) evalAll_evaluates stdGlue_sound (n := 1) (k := 0) (K := 2)
    (l := ghzOps 2 ++ [(Oper.imm (.ten (some ⟨[2, 2], fun idx => if idx = [0, 0] then 1 else 0⟩)) [[.o]], [7])])
    (fun x hx => by
      rcases List.mem_append.1 hx with hx | hx
      · exact ghzOps_dens 2 0 0 x hx
      · rw [List.mem_singleton] at hx; subst hx; rw [DensBuilt]; rfl)
    (by omega)
    (fun x hx => by
      rcases List.mem_append.1 hx with hx | hx
      · exact ghzOps_appendable 2 0 x hx
      · rw [List.mem_singleton] at hx; subst hx; exact ⟨[[.o]], rfl, rfl, by simp⟩)
    (fun q => by
      rw [List.flatMap_append]
      simp only [List.flatMap_cons, List.flatMap_nil, List.append_nil, hn]
      by_cases h : q = 7
      · have := (ghzOps_word (ctr := evalAll) 2 0 q).2
        rw [if_neg (by subst h; decide)] at this
        rw [this, if_pos h]
        simp [Connectable]
      · rw [if_neg h, List.append_nil]
        exact (ghzOps_word 2 0 q).1)
    (seqFrom_outs _) (seqFrom_ins _)
  exact ⟨c, d, h1, h2⟩

end Oper

end Verif
