import Verif.Props.GrcsGates
import Verif.Lemmas.Later
/-!
# C73: the circuit loader `GRCS` of examples/circuit_simulation.py

A file of gates is loaded as the circuit that applies the gates, layer by layer, to the basis state `in_state`.
-/

namespace Verif

namespace Circ

variable {α : Type} {sh : ShapeFn α}

/-- The circuit with the operations of `l` (operation, qubits, time step), named automatically. -/
def timed (l : List (α × List Int × Int)) : Circ α := l.map fun x => (autoName x.2.2 x.2.1, ⟨x.1, x.2.2, x.2.1⟩)

theorem timed_keys {l : List (α × List Int × Int)} (hne : ∀ x ∈ l, x.2.1 ≠ [])
    (hd : l.Pairwise fun x y => x.2.2 = y.2.2 → x.2.1.Disjoint y.2.1) : (Dict.keys (timed l)).Nodup := by
  unfold Dict.keys timed
  rw [List.map_map, List.Nodup, List.pairwise_map]
  refine List.Pairwise.imp_of_mem (fun {x y} hx _ h he => ?_) hd
  obtain ⟨h1, h2⟩ := autoName_inj he
  obtain ⟨q, hq⟩ := List.exists_mem_of_ne_nil _ (hne x hx)
  exact h h1 hq (h2 ▸ hq)

theorem append_timed {l : List (α × List Int × Int)} {x : α × List Int × Int} (hx : Appendable sh (x.1, x.2.1))
    (hn : (Dict.keys (timed (l ++ [x]))).Nodup) : append sh (timed l) x.1 x.2.1 (some x.2.2) = .ok (timed (l ++ [x])) := by
  obtain ⟨s, h1, h2, h3⟩ := hx
  have hnew : autoName x.2.2 x.2.1 ∉ (timed l).keys := by
    unfold timed at hn
    rw [List.map_append] at hn
    unfold Dict.keys at hn ⊢
    rw [List.map_append, List.nodup_append] at hn
    intro hc
    exact hn.2.2 _ hc _ (by simp) rfl
  unfold append
  rw [if_neg (by simpa using h3)]
  dsimp only at h1 h2 ⊢
  rw [h1]
  dsimp only
  rw [if_neg (by omega)]
  simp only [Option.getD_none, Option.getD_some]
  rw [Dict.set_eq_append hnew]
  simp [timed]

theorem timed_nodup {l l' : List (α × List Int × Int)} (h : (Dict.keys (timed (l ++ l'))).Nodup) : (Dict.keys (timed l)).Nodup := by
  unfold timed Dict.keys at h ⊢
  rw [List.map_append, List.map_append] at h
  exact (List.nodup_append.1 h).1

/-- The ends on a wire through gates that keep all qubits. -/
theorem wire_through {l : Circ α} {q : Int} (h : ∀ p ∈ l, portsAt (shapeD sh p.2.op) p.2.qubits q = [] ∨
    portsAt (shapeD sh p.2.op) p.2.qubits q = [.inp, .out]) :
    Connectable (.out :: wireWord sh q l) ∧ (Port.out :: wireWord sh q l).getLast? = some .out := by
  induction l with
  | nil => simp [wireWord, Connectable]
  | cons p l ih =>
    obtain ⟨i1, i2⟩ := ih fun p' hp' => h p' (by simp [hp'])
    unfold wireWord at i1 i2 ⊢
    rw [List.flatMap_cons]
    rcases h p (by simp) with e | e
    · rw [e]
      exact ⟨i1, i2⟩
    · rw [e]
      refine ⟨?_, ?_⟩
      · unfold Connectable at i1 ⊢
        simp only [List.cons_append, List.nil_append, List.isChain_cons_cons]
        exact ⟨by decide, by decide, i1⟩
      · simp only [List.cons_append, List.nil_append, List.getLast?_cons_cons]
        exact i2

theorem square_ports {s : List (List Letter)} (hs : Square s) {qs : List Int} (hn : qs.Nodup) (hl : s.length = qs.length) (q : Int) :
    portsAt s qs q = if q ∈ qs then [.inp, .out] else [] := by
  induction qs generalizing s with
  | nil => simp [portsAt]
  | cons r qs ih =>
    match s, hl with
    | w :: s, hl =>
      have ih' := ih (s := s) (fun v hv => hs v (by simp [hv])) (List.nodup_cons.1 hn).2 (by simpa using hl)
      have hw : w.flatMap Letter.ports = [.inp, .out] := by rcases hs w (by simp) with rfl | rfl <;> rfl
      unfold portsAt at ih' ⊢
      rw [List.zip_cons_cons, List.filter_cons]
      by_cases h : r = q
      · subst h
        have : r ∉ qs := (List.nodup_cons.1 hn).1
        rw [if_neg this] at ih'
        simp [ih', hw]
      · rw [if_neg (by simpa using h), ih']
        simp [Ne.symm h]

theorem square_ins {s : List (List Letter)} (hs : Square s) {qs : List Int} (hn : qs.Nodup) (hl : s.length = qs.length) :
    inQubits s qs = qs ∧ outQubits s qs = qs := by
  unfold inQubits outQubits
  constructor <;> rw [List.filter_eq_self] <;> intro q hq <;> rw [square_ports hs hn hl, if_pos hq] <;> simp

end Circ

namespace Oper

open Circ

variable {ctr : TVal ℂ → Except Err (Arr ℂ)}

/-- The words of a line read as a gate in a layer. -/
def Reads (l : List Word) (g : Int × QGate) : Prop :=
  ∃ w0 w1 rest, l = w0 :: w1 :: rest ∧ w0.int? = some g.1 ∧
    match g.2 with
    | .h q => w1.lower = "h" ∧ rest.map Word.int? = [some q]
    | .sqrtX q => w1.lower = "x_1_2" ∧ rest.map Word.int? = [some q]
    | .sqrtY q => w1.lower = "y_1_2" ∧ rest.map Word.int? = [some q]
    | .sqrtW q => w1.lower = "hz_1_2" ∧ rest.map Word.int? = [some q]
    | .t q => w1.lower = "t" ∧ rest.map Word.int? = [some q]
    | .cz q r => w1.lower = "cz" ∧ rest.map Word.int? = [some q, some r]
    | .iswap q r => w1.lower = "is" ∧ rest.map Word.int? = [some q, some r]
    | .rz θ q => w1.lower = "rz" ∧ ∃ w p, rest = [w, p] ∧ w.int? = some q ∧ p.num? = some θ
    | .fsim θ φ q r => w1.lower = "fs" ∧ ∃ w w' p p', rest = [w, w', p, p'] ∧ w.int? = some q ∧ w'.int? = some r ∧
        p.num? = some θ ∧ p'.num? = some φ

theorem reads_line {l : List Word} {g : Int × QGate} (h : Reads l g) :
    lineOp (.circ (seqFrom 0 isOps)) l = .ok (some (ofGate g.2, g.2.qubits, g.1)) := by
  obtain ⟨w0, w1, rest, rfl, h0, h⟩ := h
  obtain ⟨t, g⟩ := g
  dsimp only at h0 h
  have one : ∀ {q : Int}, rest.map Word.int? = [some q] → ∃ w, rest = [w] ∧ w.int? = some q := by
    intro q hr
    simp only [List.map_eq_cons_iff, List.map_eq_nil_iff] at hr
    obtain ⟨w, _, rfl, h1, rfl⟩ := hr
    exact ⟨w, rfl, h1⟩
  have two : ∀ {q r : Int}, rest.map Word.int? = [some q, some r] → ∃ w w', rest = [w, w'] ∧ w.int? = some q ∧ w'.int? = some r := by
    intro q r hr
    simp only [List.map_eq_cons_iff, List.map_eq_nil_iff] at hr
    obtain ⟨w, _, rfl, h1, w', _, rfl, h2, rfl⟩ := hr
    exact ⟨w, w', rfl, h1, h2⟩
  cases g with
  | h q =>
    obtain ⟨hn, hr⟩ := h
    obtain ⟨w, rfl, hw⟩ := one hr
    simp [lineOp, h0, hn, sizeTable, hw, paramOp, gateTable, ofGate, QGate.qubits]
  | sqrtX q =>
    obtain ⟨hn, hr⟩ := h
    obtain ⟨w, rfl, hw⟩ := one hr
    simp [lineOp, h0, hn, sizeTable, hw, paramOp, gateTable, ofGate, QGate.qubits]
  | sqrtY q =>
    obtain ⟨hn, hr⟩ := h
    obtain ⟨w, rfl, hw⟩ := one hr
    simp [lineOp, h0, hn, sizeTable, hw, paramOp, gateTable, ofGate, QGate.qubits]
  | sqrtW q =>
    obtain ⟨hn, hr⟩ := h
    obtain ⟨w, rfl, hw⟩ := one hr
    simp [lineOp, h0, hn, sizeTable, hw, paramOp, gateTable, ofGate, QGate.qubits]
  | t q =>
    obtain ⟨hn, hr⟩ := h
    obtain ⟨w, rfl, hw⟩ := one hr
    simp [lineOp, h0, hn, sizeTable, hw, paramOp, gateTable, ofGate, QGate.qubits]
  | cz q r =>
    obtain ⟨hn, hr⟩ := h
    obtain ⟨w, w', rfl, hw, hw'⟩ := two hr
    simp [lineOp, h0, hn, sizeTable, hw, hw', paramOp, gateTable, ofGate, QGate.qubits]
  | iswap q r =>
    obtain ⟨hn, hr⟩ := h
    obtain ⟨w, w', rfl, hw, hw'⟩ := two hr
    simp [lineOp, h0, hn, sizeTable, hw, hw', paramOp, gateTable, ofGate, QGate.qubits]
  | rz θ q =>
    obtain ⟨hn, w, p, rfl, hw, hp⟩ := h
    simp [lineOp, h0, hn, sizeTable, hw, hp, paramOp, ofGate, QGate.qubits]
  | fsim θ φ q r =>
    obtain ⟨hn, w, w', p, p', rfl, hw, hw', hp, hp'⟩ := h
    simp [lineOp, h0, hn, sizeTable, hw, hw', hp, hp', paramOp, ofGate, QGate.qubits]

/-- A line of the circuit: operation, qubits, time step. -/
noncomputable def gateLine (g : Int × QGate) : Oper ℂ × List Int × Int := (ofGate g.2, g.2.qubits, g.1)

theorem grcsLines_eq {sh : ShapeFn (Oper ℂ)} {lines : List (List Word)} {gs : List (Int × QGate)} (h : List.Forall₂ Reads lines gs) :
    ∀ l, (∀ g ∈ gs, Appendable sh (ofGate g.2, g.2.qubits)) → (Dict.keys (timed (l ++ gs.map gateLine))).Nodup →
      grcsLines sh (.circ (seqFrom 0 isOps)) lines (timed l) = .ok (timed (l ++ gs.map gateLine)) := by
  induction h with
  | nil => intro l _ _; simp [grcsLines]
  | @cons ln g lines gs hr _ ih =>
    intro l ha hn
    rw [List.map_cons, List.append_cons] at hn ⊢
    rw [grcsLines, reads_line hr]
    dsimp only
    have := append_timed (x := gateLine g) (ha g (by simp)) (timed_nodup hn)
    rw [show append sh (timed l) (ofGate g.2) g.2.qubits (some g.1) = _ from this]
    exact ih _ (fun g' hg' => ha g' (by simp [hg'])) hn

/-- The states of the qubits. -/
noncomputable def stateLine (b : Int → Nat) (q : Nat) : Oper ℂ × List Int × Int := (compState (b q), [(q : Int)], -1)

theorem grcsStates_eq {sh : ShapeFn (Oper ℂ)} {n s : Nat} {b : Int → Nat} {qs : List Nat} (hb : ∀ q ∈ qs, (s >>> (n - q - 1)) &&& 1 = b q) :
    ∀ l, (∀ k, Appendable sh (compState (b k), [k])) → (Dict.keys (timed (l ++ qs.map (stateLine b)))).Nodup →
      grcsStates sh n s qs (timed l) = .ok (timed (l ++ qs.map (stateLine b))) := by
  induction qs with
  | nil => intro l _ _; simp [grcsStates]
  | cons q qs ih =>
    intro l ha hn
    rw [List.map_cons, List.append_cons] at hn ⊢
    rw [grcsStates, hb q (by simp)]
    have := append_timed (x := stateLine b q) (ha q) (timed_nodup hn)
    rw [show append sh (timed l) (compState (b q)) [(q : Int)] (some (-1)) = _ from this]
    exact ih (fun q' hq' => hb q' (by simp [hq'])) _ ha hn

theorem digit_at (b : Int → Nat) (hb : Good b) : ∀ (n q : Nat), q < n →
    ((∑ q ∈ Finset.range n, b q * 2 ^ (n - 1 - q)) >>> (n - q - 1)) &&& 1 = b q := by
  have hs : ∀ n, (∑ q ∈ Finset.range (n + 1), b q * 2 ^ (n + 1 - 1 - q)) = 2 * (∑ q ∈ Finset.range n, b q * 2 ^ (n - 1 - q)) + b n := by
    intro n
    rw [Finset.sum_range_succ, Finset.mul_sum]
    congr 1
    · refine Finset.sum_congr rfl fun q hq => ?_
      have := Finset.mem_range.1 hq
      rw [show n + 1 - 1 - q = (n - 1 - q) + 1 by omega, pow_succ]
      ring
    · simp
  intro n
  induction n with
  | zero => intro q hq; omega
  | succ n ih =>
    intro q hq
    have h2 := hb n
    rw [hs, Nat.and_one_is_mod, Nat.shiftRight_eq_div_pow]
    by_cases h : q = n
    · subst h
      rw [show q + 1 - q - 1 = 0 by omega, pow_zero, Nat.div_one]
      omega
    · have := ih q (by omega)
      rw [Nat.and_one_is_mod, Nat.shiftRight_eq_div_pow] at this
      rw [show n + 1 - q - 1 = (n - q - 1) + 1 by omega, pow_succ', ← Nat.div_div_eq_div_mul,
        show (2 * (∑ q ∈ Finset.range n, b q * 2 ^ (n - 1 - q)) + b n) / 2 = ∑ q ∈ Finset.range n, b q * 2 ^ (n - 1 - q) by omega]
      exact this

theorem compState_built (n : Nat) {b : Nat} (hb : b < 2) : Built ctr (n + 1) false (compState b) := by
  have hs : ∀ w ∈ [[Letter.o]], PlainWord w := by decide
  unfold compState compStateRec
  rw [Built]
  refine ⟨⟨hs, rfl, ?_, ?_, fun h => (by cases h)⟩, fun h => by cases h⟩
  · rw [TVal.Whole]; trivial
  · intro c k h
    simp only [Option.some.injEq, Prod.mk.injEq] at h
    obtain ⟨rfl, rfl⟩ := h
    refine ⟨hb, rfl, fun x _ => ?_⟩
    show (TVal.tot (.ten (some _)) [x] : ℂ) = _
    rw [TVal.tot]
    simp [basisArr]

theorem state_act (n : Nat) (b : Nat) (q : Int) (Ψ : (Int → Nat) → ℂ) (w : Int → Nat) :
    Act.apply (actOf (shapes ctr (n + 1)) (matrix ctr (n + 1)) ⟨compState b, -1, [q]⟩) Ψ w = if w q = b then Ψ w else 0 := by
  have h1 : inQubits (shapeD (shapes ctr (n + 1)) (compState b)) [q] = [] := by
    show inQubits [[.o]] [q] = []
    simp [inQubits, portsAt, Letter.ports]
  have h2 : outQubits (shapeD (shapes ctr (n + 1)) (compState b)) [q] = [q] := by
    show outQubits [[.o]] [q] = [q]
    simp [outQubits, portsAt, Letter.ports]
  unfold Act.apply actOf
  rw [h1, h2, sumOver_nil]
  show (TVal.tot (.ten (some _)) ([q].map w ++ [].map w) : ℂ) * Ψ w = _
  rw [TVal.tot]
  by_cases h : w q = b <;> simp [h, basisArr]

theorem states_evolve (n : Nat) (b : Int → Nat) (qs : List Nat) : ∀ (Ψ : (Int → Nat) → ℂ) (w : Int → Nat),
    evolve ((timed (qs.map (stateLine b))).map fun p => actOf (shapes ctr (n + 1)) (matrix ctr (n + 1)) p.2) Ψ w =
      if ∀ q ∈ qs, w (q : Int) = b q then Ψ w else 0 := by
  induction qs with
  | nil => intro Ψ w; simp [timed, evolve]
  | cons q qs ih =>
    intro Ψ w
    have := ih (Act.apply (actOf (shapes ctr (n + 1)) (matrix ctr (n + 1)) ⟨compState (b q), -1, [(q : Int)]⟩) Ψ) w
    simp only [timed, List.map_cons, evolve] at this ⊢
    rw [show (stateLine b q).1 = compState (b q) from rfl, show (stateLine b q).2.2 = -1 from rfl, show (stateLine b q).2.1 = [(q : Int)] from rfl]
    rw [this, state_act]
    by_cases h : w (q : Int) = b q <;> simp [h]

/-- The gates of a file fit: layers from 0 on, distinct qubits below `n`, no qubit used twice in a layer. -/
structure WellFormed (n : Nat) (gs : List (Int × QGate)) : Prop where
  layer : ∀ g ∈ gs, 0 ≤ g.1
  distinct : ∀ g ∈ gs, g.2.qubits.Nodup
  range : ∀ g ∈ gs, ∀ q ∈ g.2.qubits, 0 ≤ q ∧ q < n
  disjoint : gs.Pairwise fun g g' => g.1 = g'.1 → g.2.qubits.Disjoint g'.2.qubits

theorem gate_qubits (g : QGate) : g.qubits ≠ [] := by cases g <;> simp [QGate.qubits]

/-- The operations of the circuit. -/
noncomputable def grcsOps (n : Nat) (b : Int → Nat) (gs : List (Int × QGate)) : List (Oper ℂ × List Int × Int) :=
  (List.range n).map (stateLine b) ++ gs.map gateLine

theorem grcsOps_disjoint {n : Nat} {b : Int → Nat} {gs : List (Int × QGate)} (h : WellFormed n gs) :
    (grcsOps n b gs).Pairwise fun x y => x.2.2 = y.2.2 → x.2.1.Disjoint y.2.1 := by
  unfold grcsOps
  rw [List.pairwise_append]
  refine ⟨?_, ?_, ?_⟩
  · rw [List.pairwise_map]
    refine List.pairwise_lt_range.imp fun {q r} hqr _ => ?_
    simp [stateLine]
    omega
  · rw [List.pairwise_map]
    exact h.disjoint
  · intro x hx y hy he
    obtain ⟨q, -, rfl⟩ := List.mem_map.1 hx
    obtain ⟨g, hg, rfl⟩ := List.mem_map.1 hy
    have := h.layer g hg
    simp only [stateLine, gateLine] at he
    omega

theorem grcsOps_appendable {n k : Nat} {b : Int → Nat} {gs : List (Int × QGate)} (h : WellFormed n gs) :
    ∀ x ∈ grcsOps n b gs, Appendable (shapes ctr (k + 2)) (x.1, x.2.1) := by
  intro x hx
  rcases List.mem_append.1 hx with hx | hx
  · obtain ⟨q, -, rfl⟩ := List.mem_map.1 hx
    exact ⟨[[.o]], rfl, rfl, by simp [stateLine]⟩
  · obtain ⟨g, hg, rfl⟩ := List.mem_map.1 hx
    obtain ⟨s, h1, h2, -⟩ := ofGate_shape (ctr := ctr) k g.2
    exact ⟨s, h1, h2, h.distinct g hg⟩

theorem grcsOps_keys {n : Nat} {b : Int → Nat} {gs : List (Int × QGate)} (h : WellFormed n gs) : (Dict.keys (timed (grcsOps n b gs))).Nodup := by
  refine timed_keys (fun x hx => ?_) (grcsOps_disjoint h)
  rcases List.mem_append.1 hx with hx | hx
  · obtain ⟨q, -, rfl⟩ := List.mem_map.1 hx
    simp [stateLine]
  · obtain ⟨g, hg, rfl⟩ := List.mem_map.1 hx
    exact gate_qubits g.2

theorem grcs_eq {n k : Nat} {b : Int → Nat} {gs : List (Int × QGate)} (h : WellFormed n gs) (hb : Good b) {head : Word} (hh : head.int? = some (n : Int))
    {lines : List (List Word)} (hr : List.Forall₂ Reads lines gs) :
    grcs (shapes ctr (k + 2)) head (some (∑ q ∈ Finset.range n, b q * 2 ^ (n - 1 - q))) lines = .ok (timed (grcsOps n b gs)) := by
  have hk := grcsOps_keys (b := b) h
  unfold grcs
  rw [hh]
  dsimp only
  have h1 := grcsStates_eq (sh := shapes ctr (k + 2)) (n := n) (qs := List.range n) (fun q hq => digit_at b hb n q (List.mem_range.1 hq)) []
    (fun q => ⟨[[.o]], rfl, rfl, by simp⟩) (timed_nodup (l' := gs.map gateLine) hk)
  rw [Int.toNat_natCast, show grcsStates _ n _ (List.range n) [] = _ from h1, isOper_eq]
  exact grcsLines_eq hr _ (fun g hg => grcsOps_appendable (b := b) h (gateLine g) (List.mem_append_right _ (List.mem_map_of_mem hg))) hk

theorem timed_append_list {α : Type} (l l' : List (α × List Int × Int)) : timed (l ++ l') = timed l ++ timed l' := List.map_append

theorem grcs_sorted {n : Nat} {b : Int → Nat} {gs : List (Int × QGate)} (h : WellFormed n gs) :
    timeSorted (timed (grcsOps n b gs)) = timed ((List.range n).map (stateLine b)) ++ timeSorted (timed (gs.map gateLine)) := by
  unfold grcsOps
  rw [timed_append_list, timeSorted_append]
  · congr 1
    refine List.Pairwise.insertionSort_eq ?_
    unfold timed
    rw [List.map_map, List.pairwise_map]
    exact List.pairwise_of_forall fun x y => le_refl (-1 : Int)
  · intro p hp p' hp'
    obtain ⟨x, hx, rfl⟩ := List.mem_map.1 hp
    obtain ⟨q, -, rfl⟩ := List.mem_map.1 hx
    obtain ⟨y, hy, rfl⟩ := List.mem_map.1 hp'
    obtain ⟨g, hg, rfl⟩ := List.mem_map.1 hy
    have := h.layer g hg
    show (-1 : Int) < g.1
    omega

theorem states_word (n k : Nat) (b : Int → Nat) (q : Int) : wireWord (shapes ctr (k + 1)) q (timed ((List.range n).map (stateLine b))) =
    if 0 ≤ q ∧ q < n then [.out] else [] := by
  have e1 : ∀ (j : Nat) (r : Int), portsAt (shapeD (shapes ctr (k + 1)) (compState j)) [r] q = if q = r then [.out] else [] := by
    intro j r
    show portsAt [[.o]] [r] q = _
    by_cases h : r = q
    · subst h; simp [portsAt, Letter.ports]
    · simp [portsAt, h, Ne.symm h]
  induction n with
  | zero =>
    rw [if_neg (by omega)]
    rfl
  | succ n ih =>
    unfold wireWord timed at ih ⊢
    rw [List.range_succ, List.map_append, List.map_append, List.flatMap_append, ih]
    simp only [List.map_cons, List.map_nil, List.flatMap_cons, List.flatMap_nil, List.append_nil]
    rw [show (stateLine b n).1 = compState (b n) from rfl, show (stateLine b n).2.1 = [(n : Int)] from rfl, e1]
    by_cases h1 : q = n
    · rw [if_pos h1, if_neg (by omega), if_pos (by push_cast; omega)]; rfl
    · rw [if_neg h1]
      by_cases h2 : 0 ≤ q ∧ q < n
      · rw [if_pos h2, if_pos (by push_cast; omega)]; rfl
      · rw [if_neg h2, if_neg (by push_cast; omega)]; rfl

/-- The ends on the wires of the circuit. -/
theorem grcs_word {n k : Nat} {b : Int → Nat} {gs : List (Int × QGate)} (h : WellFormed n gs) (q : Int) :
    if 0 ≤ q ∧ q < n then
      Connectable (wireWord (shapes ctr (k + 2)) q (timeSorted (timed (grcsOps n b gs)))) ∧
      (wireWord (shapes ctr (k + 2)) q (timeSorted (timed (grcsOps n b gs)))).head? = some .out ∧
      (wireWord (shapes ctr (k + 2)) q (timeSorted (timed (grcsOps n b gs)))).getLast? = some .out
    else wireWord (shapes ctr (k + 2)) q (timeSorted (timed (grcsOps n b gs))) = [] := by
  have hw : wireWord (shapes ctr (k + 2)) q (timeSorted (timed (grcsOps n b gs))) =
      (if 0 ≤ q ∧ q < n then [.out] else []) ++ wireWord (shapes ctr (k + 2)) q (timeSorted (timed (gs.map gateLine))) := by
    rw [grcs_sorted h, ← states_word (ctr := ctr) n (k + 1) b q]
    unfold wireWord
    rw [List.flatMap_append]
  have hg : ∀ p ∈ timeSorted (timed (gs.map gateLine)), portsAt (shapeD (shapes ctr (k + 2)) p.2.op) p.2.qubits q =
      if q ∈ p.2.qubits then [.inp, .out] else [] := by
    intro p hp
    obtain ⟨x, hx, rfl⟩ := List.mem_map.1 ((timeSorted_perm _).mem_iff.1 hp)
    obtain ⟨g, hg, rfl⟩ := List.mem_map.1 hx
    obtain ⟨s, h1, h2, h3⟩ := ofGate_shape (ctr := ctr) k g.2
    have : shapeD (shapes ctr (k + 2)) (ofGate g.2) = s := by unfold shapeD; rw [h1]
    show portsAt (shapeD (shapes ctr (k + 2)) (ofGate g.2)) g.2.qubits q = _
    rw [this]
    exact square_ports h3 (h.distinct g hg) h2 q
  rw [hw]
  split
  · obtain ⟨h1, h2⟩ := wire_through (sh := shapes ctr (k + 2)) (q := q) (l := timeSorted (timed (gs.map gateLine))) fun p hp => by
      rw [hg p hp]; split <;> simp
    exact ⟨h1, rfl, h2⟩
  · rename_i hq
    rw [List.nil_append]
    unfold wireWord
    rw [List.flatMap_eq_nil_iff]
    intro p hp
    rw [hg p hp, if_neg]
    obtain ⟨x, hx, rfl⟩ := List.mem_map.1 ((timeSorted_perm _).mem_iff.1 hp)
    obtain ⟨g, hg', rfl⟩ := List.mem_map.1 hx
    exact fun hc => hq (h.range g hg' q hc)

theorem grcs_fits {n k : Nat} {b : Int → Nat} {gs : List (Int × QGate)} (h : WellFormed n gs) :
    Fitting (shapes ctr (k + 2)) (timed (grcsOps n b gs)) := by
  intro p hp
  obtain ⟨x, hx, rfl⟩ := List.mem_map.1 hp
  exact grcsOps_appendable h x hx

theorem grcs_valid {n k : Nat} {b : Int → Nat} {gs : List (Int × QGate)} (h : WellFormed n gs) :
    ∃ s, Circ.shape (shapes ctr (k + 2)) (timed (grcsOps n b gs)) = .ok s := by
  rw [c35_shape_iff (grcs_fits h)]
  intro q
  refine ⟨(timeSorted (timed (grcsOps n b gs))).filter fun p => q ∈ p.2.qubits, ⟨(timeSorted_perm _).filter _, ?_⟩, ?_⟩
  · have h1 : (timeSorted (timed (grcsOps n b gs))).Pairwise fun p p' => p.2.time = p'.2.time → p.2.qubits.Disjoint p'.2.qubits := by
      refine ((timeSorted_perm _).pairwise_iff fun {x y} hxy he => (hxy he.symm).symm).2 ?_
      unfold timed
      rw [List.pairwise_map]
      exact grcsOps_disjoint h
    have h2 := (h1.and (timeSorted_sorted _)).filter fun p => q ∈ p.2.qubits
    refine List.Pairwise.imp_of_mem (fun {x y} hx hy hxy => ?_) h2
    have hx' : q ∈ x.2.qubits := by simpa using (List.mem_filter.1 hx).2
    have hy' : q ∈ y.2.qubits := by simpa using (List.mem_filter.1 hy).2
    exact lt_of_le_of_ne hxy.2 fun he => hxy.1 he hx' hy'
  · rw [wireWord_filter]
    have := grcs_word (ctr := ctr) (k := k) (b := b) h q
    split at this
    · exact this.1
    · rw [this]; simp [Connectable]

theorem grcs_outs {n k : Nat} {b : Int → Nat} {gs : List (Int × QGate)} (h : WellFormed n gs) :
    circOuts (shapes ctr (k + 2)) (timed (grcsOps n b gs)) = (List.range n).map fun q : Nat => (q : Int) := by
  have h1 : (circOuts (shapes ctr (k + 2)) (timed (grcsOps n b gs))).Pairwise (· < ·) := (qubitsOf_sorted _).filter _
  have h2 : ((List.range n).map fun q : Nat => (q : Int)).Pairwise (· < ·) := by
    rw [List.pairwise_map]
    exact List.pairwise_lt_range.imp fun h => by omega
  refine List.Perm.eq_of_pairwise (fun x y _ _ h1 h2 => absurd h1 (by omega)) h1 h2
    ((List.perm_ext_iff_of_nodup (h1.imp fun h => h.ne) (h2.imp fun h => h.ne)).2 fun q => ?_)
  rw [mem_circOuts, List.mem_map]
  have := grcs_word (ctr := ctr) (k := k) (b := b) h q
  split at this
  · rename_i hq
    exact ⟨fun _ => ⟨q.toNat, List.mem_range.2 (by omega), by omega⟩, fun _ => this.2.2⟩
  · rename_i hq
    rw [this]
    refine ⟨fun h => (by cases h), fun ⟨r, hr, he⟩ => ?_⟩
    have := List.mem_range.1 hr
    omega

theorem grcs_ins {n k : Nat} {b : Int → Nat} {gs : List (Int × QGate)} (h : WellFormed n gs) :
    circIns (shapes ctr (k + 2)) (timed (grcsOps n b gs)) = [] := by
  rw [List.eq_nil_iff_forall_not_mem]
  intro q hq
  rw [mem_circIns] at hq
  have := grcs_word (ctr := ctr) (k := k) (b := b) h q
  split at this
  · rw [this.2.1] at hq; cases hq
  · rw [this] at hq; cases hq

/-- **C73.**  `GRCS` of a file of gates: the circuit has the qubits `0 … n-1` as outputs and no inputs, and the amplitudes of its tensor are those
of the basis state `in_state`, first qubit most significant, after the gates of the file, layer by layer (in any order within a layer). -/
theorem c73_state (hctr : Evaluates ctr) (k : Nat) {n : Nat} {b : Int → Nat} (hb : Good b) {gs : List (Int × QGate)} (h : WellFormed n gs)
    {head : Word} (hh : head.int? = some (n : Int)) {lines : List (List Word)} (hr : List.Forall₂ Reads lines gs)
    {order : List (Int × QGate)} (hp : order.Perm gs) (ho : order.Pairwise fun g g' => g.1 ≤ g'.1) :
    ∃ c t, grcs (shapes ctr (k + 2)) head (some (∑ q ∈ Finset.range n, b q * 2 ^ (n - 1 - q))) lines = .ok c ∧
      Built ctr (k + 3) false (.circ c) ∧ (iface ctr (k + 3)).tensor (.circ c) = .ok t ∧
      t.shape = some (List.replicate n (some 2)) ∧
      ∀ u : Int → Nat, Good u → t.tot ((List.range n).map fun q : Nat => u q) =
        evolve (order.map fun g => g.2.act) (basisState ((List.range n).map fun q : Nat => (q : Int)) b) u := by
  have hfit := grcs_fits (ctr := ctr) (k := k) (b := b) h
  have hB : Built ctr (k + 3) false (.circ (timed (grcsOps n b gs))) := by
    rw [Built]
    refine ⟨grcsOps_keys h, grcs_valid h, fun p hp => ?_, by simp⟩
    obtain ⟨x, hx, rfl⟩ := List.mem_map.1 hp
    obtain ⟨s, h1, h2, h3⟩ := grcsOps_appendable (ctr := ctr) (k := k) h x hx
    refine ⟨?_, h3, s, h1, h2⟩
    rcases List.mem_append.1 hx with hx | hx
    · obtain ⟨q, -, rfl⟩ := List.mem_map.1 hx
      exact compState_built (k + 1) (hb q)
    · obtain ⟨g, hg, rfl⟩ := List.mem_map.1 hx
      exact ofGate_built hctr k g.2
  obtain ⟨s, t, hm, -⟩ := means_built hctr _ _ _ hB
  have hs : Circ.shape (shapes ctr (k + 2)) (timed (grcsOps n b gs)) = .ok s := hm.shape
  have hlen : (outPlaces s).length + (inPlaces s).length = n := by
    rw [Circ.outs_length hfit hs, Circ.ins_length hfit hs, grcs_outs h, grcs_ins h]; simp
  refine ⟨_, t, grcs_eq h hb hh hr, hB, hm.tensor, by rw [hm.dims, hlen], fun u hu => ?_⟩
  rw [hm.entries _ (by rw [hlen]; exact ⟨by simp, fun x hx => by obtain ⟨q, -, rfl⟩ := List.mem_map.1 hx; exact hu _⟩)]
  have key := Circ.circMat_attached hfit hs Function.injective_id (matrix ctr (k + 2)) b u
  simp only [renamed_id, grcs_outs h, grcs_ins h, List.map_nil, List.append_nil, List.map_map] at key
  refine Eq.trans (b := circMat (shapes ctr (k + 2)) (matrix ctr (k + 2)) (timed (grcsOps n b gs)) _) rfl (key.trans ?_)
  rw [grcs_sorted h, List.map_append, evolve_append]
  have hgs : ∀ Ψ : (Int → Nat) → ℂ, evolve ((timeSorted (timed (gs.map gateLine))).map fun p => actOf (shapes ctr (k + 2)) (matrix ctr (k + 2)) p.2) Ψ =
      evolve ((timed (order.map gateLine)).map fun p => actOf (shapes ctr (k + 2)) (matrix ctr (k + 2)) p.2) Ψ := by
    have hkey : (Dict.keys (timed (gs.map gateLine))).Nodup := by
      refine timed_keys (fun x hx => ?_) ?_
      · obtain ⟨g, hg, rfl⟩ := List.mem_map.1 hx
        exact gate_qubits g.2
      · rw [List.pairwise_map]
        exact h.disjoint
    refine evolve_order ((timeSorted_perm _).trans ((hp.symm.map gateLine).map _)) ?_ (timeSorted_sorted _) ?_ ?_
    · exact (timeSorted_perm _).nodup_iff.2 (List.Nodup.of_map _ hkey)
    · unfold timed
      rw [List.pairwise_map, List.pairwise_map]
      exact ho
    · have h1 : (timeSorted (timed (gs.map gateLine))).Pairwise fun p p' => p.2.time = p'.2.time → p.2.qubits.Disjoint p'.2.qubits := by
        refine ((timeSorted_perm _).pairwise_iff fun {x y} hxy he => (hxy he.symm).symm).2 ?_
        unfold timed
        rw [List.pairwise_map, List.pairwise_map]
        exact h.disjoint
      intro p hp p' hp' hne he q hq hq'
      have : Std.Symm fun p p' : Nm × OpRec (Oper ℂ) => p.2.time = p'.2.time → p.2.qubits.Disjoint p'.2.qubits :=
        ⟨fun x y hxy he => (hxy he.symm).symm⟩
      exact h1.forall hp hp' hne he hq hq'
  rw [hgs]
  refine evolve_same ?_ (fun w hw => ?_) hu
  · unfold timed
    rw [List.map_map, List.map_map, List.forall₂_map_left_iff, List.forall₂_map_right_iff, List.forall₂_same]
    intro g hg
    have hg' := hp.mem_iff.1 hg
    obtain ⟨s, h1, h2, h3⟩ := ofGate_shape (ctr := ctr) k g.2
    have hsD : shapeD (shapes ctr (k + 2)) (ofGate g.2) = s := by unfold shapeD; rw [h1]
    obtain ⟨i1, i2⟩ := square_ins h3 (h.distinct g hg') h2
    have e1 : inQubits (shapeD (shapes ctr (k + 2)) (ofGate g.2)) g.2.qubits = g.2.qubits := by rw [hsD, i1]
    have e2 : outQubits (shapeD (shapes ctr (k + 2)) (ofGate g.2)) g.2.qubits = g.2.qubits := by rw [hsD, i2]
    refine ⟨e1, e2, fun x hx => c73_gates hctr k g.2 ?_⟩
    change Bits x ((outQubits (shapeD (shapes ctr (k + 2)) (ofGate g.2)) g.2.qubits).length +
      (inQubits (shapeD (shapes ctr (k + 2)) (ofGate g.2)) g.2.qubits).length) at hx
    rw [e1, e2] at hx
    rw [two_mul]
    exact hx
  · rw [states_evolve]
    simp [basisState]

end Oper

end Verif
