import Verif.Props.Operation
import Verif.Lemmas.ControlCirc
/-!
# C41: controlled operations are block diagonal

`Built` is the class of operations made of gates, controlled gates, circuits, controlled circuits and superpositions,
nested to any depth.  `c41_conversion`: such an operation is converted to its matrix, where the matrix of a controlled
circuit is the matrix of the circuit on one block and the identity on the other one.  `c41_controlled`: `Controlled` of
such an operation is an operation whose matrix is the block diagonal one.
-/

set_option linter.unusedSectionVars false

namespace Verif

variable {R : Type} [CommSemiring R] [StarRing R]

/-- The controlled matrix depends only on the entries of the matrix. -/
theorem controlMat_congr {A B : List Nat → R} {m b : Nat} (h : ∀ z, Bits z (m + m) → A z = B z) {idx : List Nat}
    (hi : Bits idx ((m + 1) + (m + 1))) : controlMat A m b idx = controlMat B m b idx := by
  obtain ⟨h1, h2⟩ := hi.split
  unfold controlMat
  dsimp only
  have hz : Bits ((idx.take (m + 1)).tail ++ (idx.drop (m + 1)).tail) (m + m) :=
    Bits.append ⟨by simp [h1.1], fun b hb => h1.2 b (List.mem_of_mem_tail hb)⟩
      ⟨by rw [List.length_tail, h2.1]; omega, fun b hb => h2.2 b (List.mem_of_mem_tail hb)⟩
  rw [h _ hz]

namespace Oper

/-- Operations as the constructors make them.  `k` says that the operation can be controlled.

* gates have data of the right size;
* circuits are valid; in a circuit that is controlled the operations on a common qubit stand in the order of their times;
* a controlled circuit is made of a circuit that has operations, all of which can be controlled;
* superpositions are accepted by the constructor. -/
def Built (ctr : TVal R → Except Err (Arr R)) : Nat → Bool → Oper R → Prop
  | 0, _, _ => False
  | _ + 1, _, .imm _ _ => False
  | _ + 1, k, .pure p _ => PureOk p ∧ (k = true → Square p.shape)
  | _ + 1, k, .ctrl data s sa _ => CtrlOk data s sa ∧ (k = true → Square s)
  | n + 1, k, .circ c => (Dict.keys c).Nodup ∧ (∃ s, Circ.shape (iface ctr n).shape c = .ok s) ∧
      (∀ p ∈ c, Built ctr n k p.2.op ∧ p.2.qubits.Nodup ∧ ∃ s, (iface ctr n).shape p.2.op = .ok s ∧ s.length = p.2.qubits.length) ∧
      (k = true → c ≠ [] ∧ c.Pairwise Circ.Follows)
  | n + 1, k, .cctrl c s _ => k = false ∧ (∃ s0, Circ.shape (iface ctr n).shape c = .ok s0 ∧ s = [.c] :: s0) ∧
      (∀ p ∈ c, Built ctr n true p.2.op ∧ p.2.qubits.Nodup ∧ ∃ s, (iface ctr n).shape p.2.op = .ok s ∧ s.length = p.2.qubits.length) ∧
      c ≠ [] ∧ c.Pairwise Circ.Follows
  | n + 1, k, .sup terms s => newSup (iface ctr n) terms = .ok (.sup terms s) ∧ (∀ p ∈ terms, Built ctr n false p.2) ∧
      (k = true → Square s)

variable {ctr : TVal R → Except Err (Arr R)}

theorem means_ctrl {n : Nat} {data : TVal R} {s : List (List Letter)} {sa sa' : Bool} {ov : Option (TVal R)} (h : CtrlOk data s sa) :
    ∃ t, Means (iface ctr (n + 1)) (blockMat data.tot s) (.ctrl data s sa' ov) s t := by
  obtain ⟨t, h1, h2, h3, h4⟩ := convertCtrl_spec h.words h.dims h.whole
  exact ⟨t, rfl, rfl, h1, h2, h3, h4, fun b k hb => by cases hb⟩

/-- `Controlled` of an operation that is no circuit. -/
theorem controlMeans_gate (hctr : Evaluates ctr) {n : Nat} {op : Oper R} {s : List (List Letter)} {t : TVal R} {M : List Nat → R}
    (hm : ∃ t, Means (iface ctr (n + 1)) M op s t) (hsq : Square s) (hnc : ∀ c, op ≠ .circ c) (ht : controlOf (iface ctr (n + 1)) op = .ok t)
    (hd : t.shape = some (List.replicate (ctrlRank s) (some 2))) (hw : TVal.Whole t)
    (he : ∀ z, Bits z (s.length + s.length) → blockMat t.tot s z = M z) (cond : Bool) :
    ControlMeans ctr (iface ctr (n + 1)) M cond op s := by
  obtain ⟨_, hm⟩ := hm
  obtain ⟨a, h1, h2, h3⟩ := controlled_spec hctr (cond := cond) hm.pure hm.shape hsq hnc ht hd hw
  obtain ⟨t', h4⟩ := means_ctrl (ctr := ctr) (n := n) (sa' := false) (ov := none) h2
  refine ⟨hm.shape, hsq, _, t', h1, h4.shape, h4.pure, h4.tensor, h4.dims, h4.whole, fun idx hi => ?_, fun b k hb => by cases hb⟩
  rw [h4.entries idx hi]
  rw [hsq.cons.outs, hsq.cons.ins, List.length_range, List.length_cons] at hi
  show blockMat a.get _ idx = _
  rw [h3 idx hi]
  exact controlMat_congr he hi

theorem square_plain_rank {s : List (List Letter)} (hsq : Square s) (hc : ∀ w ∈ s, w ≠ [.c]) :
    ctrlRank s = (outPlaces s).length + (inPlaces s).length := by
  have h0 : ctrlPlaces s = [] := by
    unfold ctrlPlaces places
    rw [List.filter_eq_nil_iff]
    intro k hk
    have := List.mem_range.1 hk
    rw [List.getElem?_eq_getElem this]
    simpa using hc _ (List.getElem_mem this)
  have := free_length s
  rw [hsq.rank, hsq.outs, hsq.ins, List.length_range, h0] at *
  simp only [List.length_nil] at *
  omega

/-- The same for an operation without controls, which is converted by `tensor_pure`. -/
theorem controlMeans_plain (hctr : Evaluates ctr) {n : Nat} {op : Oper R} {s : List (List Letter)} {M : List Nat → R} {t : TVal R}
    (hm : Means (iface ctr (n + 1)) M op s t) (hsq : Square s) (hc : ∀ w ∈ s, w ≠ [.c]) (hnc : ∀ c, op ≠ .circ c)
    (ht : controlOf (iface ctr (n + 1)) op = (iface ctr (n + 1)).tensor op) (cond : Bool) :
    ControlMeans ctr (iface ctr (n + 1)) M cond op s := by
  refine controlMeans_gate hctr ⟨t, hm⟩ hsq hnc (ht.trans hm.tensor) (by rw [hm.dims, square_plain_rank hsq hc]) hm.whole (fun z hz => ?_) cond
  obtain ⟨h1, h2⟩ := hz.split
  rw [← hm.entries z (by rw [hsq.outs, hsq.ins, List.length_range]; exact hz)]
  conv_lhs => rw [← List.take_append_drop s.length z]
  rw [hsq.blockMat_plain hc _ h1.1 h2.1, List.take_append_drop]

theorem means_built (hctr : Evaluates ctr) : ∀ (n : Nat) (k : Bool) (op : Oper R), Built ctr n k op →
    ∃ s t, Means (iface ctr n) (matrix ctr n op) op s t ∧
      (k = true → ∀ cond, ControlMeans ctr (iface ctr n) (matrix ctr n op) cond op s)
  | 0, k, op, h => by cases op <;> exact absurd h (by simp [Built])
  | n + 1, _, .imm _ _, h => absurd h (by simp [Built])
  | n + 1, k, .pure p q, h => by
    rw [Built] at h
    have hm : Means (iface ctr (n + 1)) (matrix ctr (n + 1) (.pure p q)) (.pure p q) p.shape p.data :=
      ⟨rfl, rfl, rfl, h.1.dims, h.1.whole, fun _ _ => rfl, h.1.mark⟩
    refine ⟨p.shape, p.data, hm, fun hk cond => ?_⟩
    refine controlMeans_plain hctr hm (h.2 hk) (fun w hw e => ?_) (by simp) rfl cond
    have := h.1.words w hw
    rw [e] at this
    simpa using this .c (by simp)
  | n + 1, k, .ctrl data s sa ov, h => by
    rw [Built] at h
    obtain ⟨t, ht⟩ := means_ctrl (ctr := ctr) (n := n) (sa' := sa) (ov := ov) h.1
    refine ⟨s, t, ht, fun hk cond => ?_⟩
    exact controlMeans_gate hctr ⟨t, ht⟩ (h.2 hk) (by simp) rfl h.1.dims h.1.whole (fun _ _ => rfl) cond
  | n + 1, k, .circ c, h => by
    rw [Built] at h
    obtain ⟨h1, ⟨s, h2⟩, h3, h4⟩ := h
    obtain ⟨k1, tn, k2, k3, k4, k5⟩ := Circ.means_circ (c := c) (I := iface ctr n) (M := matrix ctr n) h1 h2 fun p hp => by
      obtain ⟨j1, j2, s, j3, j4⟩ := h3 p hp
      obtain ⟨s', t, j5, -⟩ := means_built hctr n k p.2.op j1
      rw [j5.shape] at j3
      cases j3
      exact ⟨_, t, j5, j4, j2⟩
    refine ⟨s, .ofTN tn, ⟨h2, k1, ?_, k3, k4, k5, fun b k hb => by cases hb⟩, fun hk cond => ?_⟩
    · show (Circ.convertPure (iface ctr n) c).map _ = _
      rw [k2]; rfl
    · subst hk
      obtain ⟨h5, h6⟩ := h4 rfl
      obtain ⟨s', a1, a2, -, c', tn', a3, a4, a5, a6, a7⟩ := means_cctrl (ctr := ctr) (I := iface ctr n) (M := matrix ctr n) (cond := cond) h5 h6 fun p hp => by
        obtain ⟨j1, j2, s, j3, j4⟩ := h3 p hp
        obtain ⟨s', t, -, j5⟩ := means_built hctr n true p.2.op j1
        have := (j5 rfl cond).1
        rw [this] at j3
        cases j3
        exact ⟨⟨_, j5 rfl cond, j4⟩, j2⟩
      rw [h2] at a1
      cases a1
      have hall : s.all (fun w => w == [.i, .o] || w == [.c]) = true := by
        rw [List.all_eq_true]
        intro w hw
        rcases a2 w hw with rfl | rfl <;> rfl
      refine ⟨h2, a2, .cctrl c ([.c] :: s) cond, .ofTN tn', ?_, rfl, rfl, ?_, ?_, a6, fun idx hi => ?_, fun b k hb => by cases hb⟩
      · unfold controlled
        rw [show (iface ctr (n + 1)).pure (.circ c) = .ok true from k1]
        dsimp only
        rw [show (iface ctr (n + 1)).shape (.circ c) = .ok s from h2]
        dsimp only
        rw [if_neg (by simp [hall])]
      · show tensorOf ctr (iface ctr n) (.cctrl c ([.c] :: s) cond) = _
        unfold tensorOf
        dsimp only
        rw [a3]
        dsimp only
        rw [a4]; rfl
      · rw [a5, a2.cons.outs, a2.cons.ins, List.length_range, List.length_cons]
      · rw [a2.cons.outs, a2.cons.ins, List.length_range, List.length_cons] at hi
        rw [a7 idx hi]; rfl
  | n + 1, k, .cctrl c s cond, h => by
    rw [Built] at h
    obtain ⟨rfl, ⟨s0, h2, rfl⟩, h3, h5, h6⟩ := h
    obtain ⟨s', a1, a2, a0, c', tn', a3, a4, a5, a6, a7⟩ := means_cctrl (ctr := ctr) (I := iface ctr n) (M := matrix ctr n) (cond := cond) h5 h6 fun p hp => by
      obtain ⟨j1, j2, s, j3, j4⟩ := h3 p hp
      obtain ⟨s', t, -, j5⟩ := means_built hctr n true p.2.op j1
      have := (j5 rfl cond).1
      rw [this] at j3
      cases j3
      exact ⟨⟨_, j5 rfl cond, j4⟩, j2⟩
    rw [h2] at a1
    cases a1
    refine ⟨_, .ofTN tn', ⟨rfl, rfl, ?_, ?_, a6, fun idx hi => ?_, fun b k hb => by cases hb⟩, fun hk => by cases hk⟩
    · show tensorOf ctr (iface ctr n) (.cctrl c ([.c] :: s0) cond) = _
      unfold tensorOf
      dsimp only
      rw [a3]
      dsimp only
      rw [a4]; rfl
    · rw [a5, a2.cons.outs, a2.cons.ins, List.length_range, List.length_cons]
    · rw [a2.cons.outs, a2.cons.ins, List.length_range, List.length_cons] at hi
      rw [a7 idx hi, ← a0]
      rfl
  | n + 1, k, .sup terms s, h => by
    rw [Built] at h
    obtain ⟨h1, h2, h3⟩ := h
    obtain ⟨t, ht⟩ := means_sup ctr h1 fun p hp => by
      obtain ⟨s, t, h, -⟩ := means_built hctr n false p.2 (h2 p hp)
      exact ⟨s, t, h⟩
    refine ⟨s, t, ht, fun hk cond => controlMeans_plain hctr ht (h3 hk) (fun w hw e => ?_) (by simp) rfl cond⟩
    obtain ⟨c0, op0, l, s0, -, -, -, e4⟩ := newSup_ok.1 h1
    obtain rfl : s = openCtrl s0 := by cases e4; rfl
    obtain ⟨w0, -, rfl⟩ := List.mem_map.1 hw
    split at e
    · cases e
    · next hne => exact hne e

/-- **C36, C41.**  An operation is converted to a tensor with the entries of its matrix. -/
theorem c41_conversion (hctr : Evaluates ctr) {n : Nat} {k : Bool} {op : Oper R} (h : Built ctr n k op) :
    ∃ s t, (iface ctr n).shape op = .ok s ∧ (iface ctr n).pure op = .ok true ∧ (iface ctr n).tensor op = .ok t ∧
      t.shape = some (List.replicate ((outPlaces s).length + (inPlaces s).length) (some 2)) ∧
      ∀ idx, Bits idx ((outPlaces s).length + (inPlaces s).length) → t.tot idx = matrix ctr n op idx := by
  obtain ⟨s, t, k, -⟩ := means_built hctr n k op h
  exact ⟨s, t, k.shape, k.pure, k.tensor, k.dims, k.entries⟩

/-- **C41.**  The controlled operation has one qubit more; it is converted to the block diagonal tensor with the matrix of
the operation on the block where the first qubit is as `conditioned_on` says, and the identity on the other block. -/
theorem c41_controlled (hctr : Evaluates ctr) {n : Nat} {op : Oper R} (h : Built ctr n true op) (cond : Bool) :
    ∃ s t op' t', (iface ctr n).shape op = .ok s ∧ (iface ctr n).tensor op = .ok t ∧
      t.shape = some (List.replicate (s.length + s.length) (some 2)) ∧
      controlled ctr (iface ctr n) op cond = .ok op' ∧ (iface ctr n).shape op' = .ok ([.c] :: s) ∧
      (iface ctr n).pure op' = .ok true ∧ (iface ctr n).tensor op' = .ok t' ∧
      t'.shape = some (List.replicate ((s.length + 1) + (s.length + 1)) (some 2)) ∧
      ∀ a b x y, a < 2 → b < 2 → Bits x s.length → Bits y s.length →
        t'.tot ((a :: x) ++ (b :: y)) =
          if a = b then (if a = (if cond then 1 else 0) then t.tot (x ++ y) else if x = y then 1 else 0) else 0 := by
  obtain ⟨s, t, k, kc⟩ := means_built hctr n true op h
  obtain ⟨-, hsq, op', t', h1, h2⟩ := kc rfl cond
  have e1 : (outPlaces s).length + (inPlaces s).length = s.length + s.length := by rw [hsq.outs, hsq.ins, List.length_range]
  have e2 : (outPlaces ([.c] :: s)).length + (inPlaces ([.c] :: s)).length = (s.length + 1) + (s.length + 1) := by
    rw [hsq.cons.outs, hsq.cons.ins, List.length_range, List.length_cons]
  have hd := k.dims
  have hd' := h2.dims
  have he := k.entries
  have he' := h2.entries
  rw [e1] at hd he
  rw [e2] at hd' he'
  refine ⟨s, t, op', t', k.shape, k.tensor, hd, h1, h2.shape, h2.pure, h2.tensor, hd', fun a b x y ha hb hx hy => ?_⟩
  have hbits : ∀ {a x}, a < 2 → Bits x s.length → Bits (a :: x) (s.length + 1) := fun {a x} ha hx =>
    ⟨by simp [hx.1], fun b hb => by rcases List.mem_cons.1 hb with rfl | hb; exacts [ha, hx.2 b hb]⟩
  rw [he' _ ((hbits ha hx).append (hbits hb hy)), ← hx.1, controlMat_cons _ _ _ _ rfl, he _ (hx.append hy)]

/-! ### An example: gates, a controlled gate, a controlled circuit and a superposition in one circuit -/

/-- Contraction as the specification demands it. -/
def evalAll (t : TVal R) : Except Err (Arr R) :=
  match t.shape with
  | none => .error .value
  | some d => if d.all Option.isSome then .ok ⟨d.map fun o => o.getD 0, t.tot⟩ else .error .value

theorem evalAll_evaluates : Evaluates (R := R) evalAll := fun t d h _ => by
  refine ⟨⟨d, t.tot⟩, ?_, rfl, fun _ _ => rfl⟩
  unfold evalAll
  rw [h]
  dsimp only
  rw [if_pos (by simp), List.map_map]
  congr 2
  simp [Function.comp_def]

instance (s : List (List Letter)) : Decidable (Square s) :=
  inferInstanceAs (Decidable (∀ w ∈ s, w = [.i, .o] ∨ w = [.c]))

instance (w : List Letter) : Decidable (PlainWord w) := inferInstanceAs (Decidable (∀ l ∈ w, l = .i ∨ l = .o))

instance (w : List Letter) : Decidable (CtrlWord w) := inferInstanceAs (Decidable (w = [.c] ∨ PlainWord w))

/-- The Pauli X gate. -/
def exX : PureRec GaussianInt :=
  { data := arrVal [2, 2] fun l => match l with | [o, i] => if o = i then 0 else 1 | _ => 0, shape := [[.i, .o]], selfAdj := true }

/-- The Pauli Z gate. -/
def exZ : PureRec GaussianInt :=
  { data := arrVal [2, 2] fun l => match l with | [o, i] => if o = i then (if o = 0 then 1 else -1) else 0 | _ => 0,
    shape := [[.i, .o]], selfAdj := true }

/-- A matrix that is neither symmetric nor Hermitian. -/
def exG : PureRec GaussianInt :=
  { data := arrVal [2, 2] fun l => match l with | [o, i] => ⟨1 + 2 * o + i, o⟩ | _ => 0, shape := [[.i, .o]] }

/-- A controlled gate. -/
def exC : TVal GaussianInt :=
  arrVal [2, 2, 2] fun l => match l with | [c, o, i] => if c = 0 then (if o = i then 1 else 0) else ⟨1 + 2 * o + i, o⟩ | _ => 0

theorem one_bit {x : List Nat} (h : x.length = 1) : ∃ a, x = [a] := by
  match x, h with
  | [a], _ => exact ⟨a, rfl⟩

theorem exX_ok : PureOk exX := by
  refine ⟨by decide, by decide, by rw [exX, arrVal, TVal.Whole]; trivial, (fun _ _ h => by cases h), fun _ => ⟨by decide, ?_⟩⟩
  intro x y hx hy _ _
  obtain ⟨a, rfl⟩ := one_bit (x := x) hx
  obtain ⟨b, rfl⟩ := one_bit (x := y) hy
  show (if a = b then (0 : GaussianInt) else 1) = star (if b = a then (0 : GaussianInt) else 1)
  by_cases h : a = b
  · simp [h]
  · rw [if_neg h, if_neg fun e => h e.symm, star_one]

theorem exZ_ok : PureOk exZ := by
  refine ⟨by decide, by decide, by rw [exZ, arrVal, TVal.Whole]; trivial, (fun _ _ h => by cases h), fun _ => ⟨by decide, ?_⟩⟩
  intro x y hx hy _ _
  obtain ⟨a, rfl⟩ := one_bit (x := x) hx
  obtain ⟨b, rfl⟩ := one_bit (x := y) hy
  show (if a = b then (if a = 0 then (1 : GaussianInt) else -1) else 0) = star (if b = a then (if b = 0 then (1 : GaussianInt) else -1) else 0)
  by_cases h : a = b
  · subst h
    by_cases h0 : a = 0 <;> simp [h0]
  · rw [if_neg h, if_neg fun e => h e.symm, star_zero]

theorem exG_ok : PureOk exG :=
  ⟨by decide, by decide, by rw [exG, arrVal, TVal.Whole]; trivial, (fun _ _ h => by cases h), (fun h => by cases h)⟩

theorem exC_ok : CtrlOk exC [[.c], [.i, .o]] false :=
  ⟨by decide, by decide, by rw [exC, arrVal, TVal.Whole]; trivial, (fun h => by cases h)⟩

/-- A circuit on the qubits 3 and 5. -/
def exCirc : Circ (Oper GaussianInt) :=
  [(.str "a", ⟨.pure exG none, 0, [3]⟩), (.str "b", ⟨.ctrl exC [[.c], [.i, .o]] false none, 1, [5, 3]⟩)]

/-- A circuit with a superposition, a controlled circuit and a circuit inside. -/
def exTop : Oper GaussianInt :=
  .circ [(.str "g", ⟨.sup [(2, .pure exG none), (⟨0, 1⟩, .pure exX none)] [[.i, .o]], 0, [1]⟩),
    (.str "h", ⟨.cctrl exCirc [[.c], [.i, .o], [.i, .o]] false, 1, [0, 1, 2]⟩),
    (.str "k", ⟨.circ exCirc, 2, [1, 2]⟩)]

theorem follows_pair {A : Type} {p p' : Nm × OpRec A} (h : p.2.time < p'.2.time) : [p, p'].Pairwise Circ.Follows := by
  rw [List.pairwise_pair]
  exact fun _ => h

theorem exCirc_ops (k : Bool) (n : Nat) : ∀ p ∈ exCirc, Built evalAll (n + 1) k p.2.op ∧ p.2.qubits.Nodup ∧
    ∃ s, (iface (R := GaussianInt) evalAll (n + 1)).shape p.2.op = .ok s ∧ s.length = p.2.qubits.length := fun p hp => by
  simp only [exCirc, List.mem_cons, List.not_mem_nil, or_false] at hp
  rcases hp with rfl | rfl
  · refine ⟨?_, by decide, _, rfl, rfl⟩
    rw [Built]
    exact ⟨exG_ok, fun _ => by decide⟩
  · refine ⟨?_, by decide, _, rfl, rfl⟩
    rw [Built]
    exact ⟨exC_ok, fun _ => by decide⟩

theorem exTop_built : Built evalAll 3 false exTop := by
  rw [exTop, Built]
  refine ⟨by decide, ⟨_, rfl⟩, fun p hp => ?_, (fun h => by cases h)⟩
  simp only [List.mem_cons, List.not_mem_nil, or_false] at hp
  rcases hp with rfl | rfl | rfl
  · refine ⟨?_, by decide, _, rfl, rfl⟩
    rw [Built]
    refine ⟨rfl, fun p hp => ?_, (fun h => by cases h)⟩
    simp only [List.mem_cons, List.not_mem_nil, or_false] at hp
    rcases hp with rfl | rfl
    · rw [Built]; exact ⟨exG_ok, (fun h => by cases h)⟩
    · rw [Built]; exact ⟨exX_ok, (fun h => by cases h)⟩
  · refine ⟨?_, by decide, _, rfl, rfl⟩
    rw [Built]
    exact ⟨rfl, ⟨_, rfl, rfl⟩, exCirc_ops true 0, by decide, follows_pair (by decide)⟩
  · refine ⟨?_, by decide, _, rfl, rfl⟩
    rw [Built]
    exact ⟨by decide, ⟨_, rfl⟩, exCirc_ops false 0, (fun h => by cases h)⟩

theorem exCirc_built : Built evalAll 2 true (.circ exCirc) := by
  rw [Built]
  exact ⟨by decide, ⟨_, rfl⟩, exCirc_ops true 0, fun _ => ⟨by decide, follows_pair (by decide)⟩⟩

/-- The hypotheses of `c41_conversion` are met. -/
example : ∃ s t, (iface (R := GaussianInt) evalAll 3).shape exTop = .ok s ∧ (iface evalAll 3).tensor exTop = .ok t ∧ s.length = 3 := by
  obtain ⟨s, t, h1, -, h2, -⟩ := c41_conversion evalAll_evaluates exTop_built
  refine ⟨s, t, h1, h2, ?_⟩
  have : (iface (R := GaussianInt) evalAll 3).shape exTop = .ok [[.c], [.i, .o], [.i, .o]] ∨
    (iface (R := GaussianInt) evalAll 3).shape exTop = .ok [[.i, .o], [.i, .o], [.i, .o]] := by decide
  rcases this with e | e <;> rw [h1] at e <;> cases e <;> rfl

/-- The hypotheses of `c41_controlled` are met by a gate, a controlled gate and a circuit. -/
example (cond : Bool) : (∃ op', controlled evalAll (iface evalAll 1) (.pure exG none) cond = .ok op') ∧
    (∃ op', controlled evalAll (iface evalAll 1) (.ctrl exC [[.c], [.i, .o]] false none) cond = .ok op') ∧
    ∃ op', controlled evalAll (iface evalAll 2) (.circ exCirc) cond = .ok op' := by
  refine ⟨?_, ?_, ?_⟩
  · obtain ⟨-, -, op', -, -, -, -, h, -⟩ := c41_controlled evalAll_evaluates (n := 1) (op := .pure exG none) (by
      rw [Built]; exact ⟨exG_ok, fun _ => by decide⟩) cond
    exact ⟨op', h⟩
  · obtain ⟨-, -, op', -, -, -, -, h, -⟩ := c41_controlled evalAll_evaluates (n := 1) (op := .ctrl exC [[.c], [.i, .o]] false none) (by
      rw [Built]; exact ⟨exC_ok, fun _ => by decide⟩) cond
    exact ⟨op', h⟩
  · obtain ⟨-, -, op', -, -, -, -, h, -⟩ := c41_controlled evalAll_evaluates exCirc_built cond
    exact ⟨op', h⟩

/-- The hypotheses of `c36_operation`, `c38_operation` and `c38_involution` are met by a circuit with a superposition, a
gate with a declared adjoint and a circuit inside. -/
theorem exSound : Sound evalAll 3 (.circ [(.str "g", ⟨.sup [(2, .pure exG none), (⟨0, 1⟩, .pure exX none)] [[.i, .o]], 0, [1]⟩),
    (.str "x", ⟨.pure exX (some exX), 1, [1]⟩), (.str "k", ⟨.circ exCirc, 2, [1, 2]⟩)]) := by
  rw [Sound]
  refine ⟨by decide, ⟨_, rfl⟩, fun p hp => ?_, by decide⟩
  simp only [List.mem_cons, List.not_mem_nil, or_false] at hp
  rcases hp with rfl | rfl | rfl
  · refine ⟨?_, by decide, _, rfl, rfl⟩
    rw [Sound]
    refine ⟨rfl, fun p hp => ?_⟩
    simp only [List.mem_cons, List.not_mem_nil, or_false] at hp
    rcases hp with rfl | rfl
    · rw [Sound]; exact ⟨exG_ok, (fun _ h => by cases h)⟩
    · rw [Sound]; exact ⟨exX_ok, (fun _ h => by cases h)⟩
  · refine ⟨?_, by decide, _, rfl, rfl⟩
    rw [Sound]
    refine ⟨exX_ok, fun p' h => ?_⟩
    cases h
    exact ⟨exX_ok, by decide, (exX_ok.herm rfl).2⟩
  · refine ⟨?_, by decide, _, rfl, rfl⟩
    rw [Sound]
    refine ⟨by decide, ⟨_, rfl⟩, fun p hp => ?_, by decide⟩
    simp only [exCirc, List.mem_cons, List.not_mem_nil, or_false] at hp
    rcases hp with rfl | rfl
    · refine ⟨?_, by decide, _, rfl, rfl⟩
      rw [Sound]; exact ⟨exG_ok, (fun _ h => by cases h)⟩
    · refine ⟨?_, by decide, _, rfl, rfl⟩
      rw [Sound]; exact ⟨exC_ok, (fun _ h => by cases h)⟩

/-! ### Where C41 fails -/

/-- The entry of the conversion of an operation. -/
def entryOf (n : Nat) (op : Oper GaussianInt) (idx : List Nat) : Option GaussianInt :=
  match (iface evalAll n).tensor op with
  | .ok t => some (t.tot idx)
  | .error _ => none

/-- X is applied at the time 0, after that Z at the time 1; Z has been appended first. -/
def exSwap : Circ (Oper GaussianInt) := [(.str "z", ⟨.pure exZ none, 1, [0]⟩), (.str "x", ⟨.pure exX none, 0, [0]⟩)]

/-- C41 fails when the operations of a circuit have not been appended in the order of their times: the conversion of a
controlled circuit appends the controlled operations in the order of the dictionary `operations_by_name`
(converter.py:36-38). -/
theorem c41_order_violated : controlled evalAll (iface evalAll 2) (.circ exSwap) true = .ok (.cctrl exSwap [[.c], [.i, .o]] true) ∧
    entryOf 2 (.circ exSwap) [0, 1] = some 1 ∧
    entryOf 2 (.cctrl exSwap [[.c], [.i, .o]] true) [1, 0, 1, 1] = some (-1) := by
  refine ⟨rfl, ?_, ?_⟩ <;> decide +kernel

/-- X at the time 0, Z at the time 1. -/
def exXZ : Circ (Oper GaussianInt) := [(.str "x", ⟨.pure exX none, 0, [0]⟩), (.str "z", ⟨.pure exZ none, 1, [0]⟩)]

/-- For the same reason C38 fails for controlled circuits: the circuit of the adjoint has its operations in the old order
of the dictionary at reversed times (circuit.py:991-1000, :1047-1048).  The first entry is that of the controlled
circuit, which is right; the second one, of the adjoint, should be its conjugate. -/
theorem c38_controlled_violated : Built evalAll 2 false (.cctrl exXZ [[.c], [.i, .o]] true) ∧
    ∃ c', adjoint evalAll 2 (.cctrl exXZ [[.c], [.i, .o]] true) = .ok (.cctrl c' [[.c], [.i, .o]] true) ∧
      entryOf 2 (.cctrl exXZ [[.c], [.i, .o]] true) [1, 0, 1, 1] = some 1 ∧
      entryOf 2 (.cctrl c' [[.c], [.i, .o]] true) [1, 1, 1, 0] = some (-1) := by
  refine ⟨?_, _, rfl, ?_, ?_⟩
  · rw [Built]
    refine ⟨rfl, ⟨_, rfl, rfl⟩, fun p hp => ?_, by decide, follows_pair (by decide)⟩
    simp only [exXZ, List.mem_cons, List.not_mem_nil, or_false] at hp
    rcases hp with rfl | rfl
    · refine ⟨?_, by decide, _, rfl, rfl⟩
      rw [Built]; exact ⟨exX_ok, fun _ => by decide⟩
    · refine ⟨?_, by decide, _, rfl, rfl⟩
      rw [Built]; exact ⟨exZ_ok, fun _ => by decide⟩
  · decide +kernel
  · decide +kernel

/-- C41 fails for the circuit without operations: `Controlled` of it has one qubit, the tensor has no axes. -/
theorem c41_empty_violated : controlled (R := GaussianInt) evalAll (iface evalAll 2) (.circ []) true = .ok (.cctrl [] [[.c]] true) ∧
    (iface (R := GaussianInt) evalAll 2).shape (.cctrl [] [[.c]] true) = .ok [[.c]] ∧
    ((iface (R := GaussianInt) evalAll 2).tensor (.cctrl [] [[.c]] true)).map TVal.shape = .ok (some []) :=
  ⟨rfl, rfl, rfl⟩

/-- A measurement and the preparation of a state. -/
def exReset : Circ (Oper GaussianInt) :=
  [(.str "m", ⟨.pure { data := arrVal [2] fun l => if l = [0] then 1 else 0, shape := [[.i]], mark := some (false, 0) } none, 0, [0]⟩),
   (.str "s", ⟨.pure { data := arrVal [2] fun l => if l = [0] then 1 else 0, shape := [[.o]], mark := some (true, 0) } none, 1, [0]⟩)]

/-- `Controlled` accepts a circuit whose qubits are inputs and outputs though its operations cannot be controlled; the
error is raised by the conversion. -/
theorem c41_reset_violated :
    controlled evalAll (iface evalAll 2) (.circ exReset) true = .ok (.cctrl exReset [[.c], [.i, .o]] true) ∧
    (iface evalAll 2).tensor (.cctrl exReset [[.c], [.i, .o]] true) = .error .value :=
  ⟨rfl, rfl⟩

/-- `Controlled` of a controlled circuit raises `AttributeError`: a `ControlledCircuit` has no `_tensor_control`. -/
theorem c41_nested_violated (ctr : TVal R → Except Err (Arr R)) (n : Nat) (c : Circ (Oper R)) (s : List (List Letter)) (hs : Square s)
    (b cond : Bool) : controlled ctr (iface ctr (n + 1)) (.cctrl c s b) cond = .error .attribute := by
  have hall : s.all (fun w => w == [.i, .o] || w == [.c]) = true := by
    rw [List.all_eq_true]
    intro w hw
    rcases hs w hw with rfl | rfl <;> rfl
  unfold controlled
  rw [show (iface ctr (n + 1)).pure (.cctrl c s b) = .ok true from rfl]
  dsimp only
  rw [show (iface ctr (n + 1)).shape (.cctrl c s b) = .ok s from rfl]
  dsimp only
  rw [if_neg (by simp [hall])]
  rfl

end Oper

end Verif
