import Verif.Lemmas.Join
import Verif.Lemmas.Isometric
import Verif.Props.Measure
/-!
# C55 The operators `|` and `*` of operations
-/

set_option linter.unusedSectionVars false

namespace Verif

namespace Oper

variable {R : Type} [CommSemiring R] [StarRing R] {ctr : TVal R → Except Err (Arr R)} {k n : Nat} {a b : Oper R} {sa sb : List (List Letter)}

section

variable {ok : Nat → Oper R → Prop} {ten : Nat → Oper R → List Nat → R} {U : Act R → List Int → List (Act R) → Prop} (H : Kind ctr ok ten U)

include H

/-- The part of C55 on wires, for pure and for mixed operations. -/
theorem Kind.or_wires (ha : ok n a) (hb : ok n b) (hsa : shapes ctr n a = .ok sa) (hsb : shapes ctr n b = .ok sb)
    (hst : ∀ d, a = .circ d → Circ.Stamped d)
    (hc : ∀ q, Connectable (portsAt sa (names true a sa.length) q ++ portsAt sb (names (isCirc a) b sb.length) q)) :
    ∃ c, orOper (shapes ctr n) a b = .ok c ∧ ok (n + 1) (.circ c) ∧ Fitting (shapes ctr n) c ∧ (∃ s, Circ.shape (shapes ctr n) c = .ok s) ∧
      Circ.Joined (shapes ctr n) (parts true a sa.length ++ parts (isCirc a) b sb.length) c ∧
      (∀ q, q ∈ qubitsOf c ↔ q ∈ names true a sa.length ∨ q ∈ names (isCirc a) b sb.length) ∧
      (∀ q, Like (portsAt sa (names true a sa.length) q ++ portsAt sb (names (isCirc a) b sb.length) q)
        (wireWord (shapes ctr n) q (timeSorted c))) := by
  obtain ⟨c, h1, h2⟩ := H.or_joined ha hb hsa hsb hst
  have hA := (H.operand ha hsa true).1
  have hB := (H.operand hb hsb (isCirc a)).1
  have hcs : ∀ q, _ ∧ _ ∧ _ := fun q => List.isChain_append.1 (hc q)
  have hword : ∀ q, wireWord (shapes ctr n) q (timeSorted c) = wireWord (shapes ctr n) q (parts true a sa.length) ++
      wireWord (shapes ctr n) q (parts (isCirc a) b sb.length) := fun q => by
    rw [h2.word]; exact List.flatMap_append
  have hlike : ∀ q, Like (portsAt sa (names true a sa.length) q ++ portsAt sb (names (isCirc a) b sb.length) q)
      (wireWord (shapes ctr n) q (timeSorted c)) := fun q => by
    rw [hword]
    exact (hA.like (fun q => (hcs q).1) q).append (hB.like (fun q => (hcs q).2.1) q)
  have hv := h2.valid fun q => by rw [← h2.word]; exact (hlike q).chain (hc q)
  refine ⟨c, h1, (H.circ n c).2 ⟨h2.keys, hv, fun p hp => ?_⟩, h2.fit, hv, h2, fun q => ?_, hlike⟩
  · obtain ⟨s', k1, k2, k3⟩ := h2.fit p hp
    refine ⟨?_, k3, s', k1, k2⟩
    obtain ⟨p', hp', e, -⟩ := h2.mem hp
    rw [e]
    exact (List.mem_append.1 hp').elim (hA.ok p') (hB.ok p')
  · rw [h2.qubits, ← hA.qubits, ← hB.qubits]
    simp only [List.mem_append, or_and_right, exists_or]

/-- `a | b` has no shape if an output meets an output or an input an input. -/
theorem Kind.or_invalid (ha : ok n a) (hb : ok n b) (hsa : shapes ctr n a = .ok sa) (hsb : shapes ctr n b = .ok sb)
    (hst : ∀ d, a = .circ d → Circ.Stamped d) {q : Int} {p : Port} (hp : (portsAt sa (names true a sa.length) q).getLast? = some p)
    (hp' : (portsAt sb (names (isCirc a) b sb.length) q).head? = some p) :
    ∃ c, orOper (shapes ctr n) a b = .ok c ∧ ∀ s, Circ.shape (shapes ctr n) c ≠ .ok s := by
  obtain ⟨c, h1, h2⟩ := H.or_joined ha hb hsa hsb hst
  refine ⟨c, h1, fun s hs => ?_⟩
  have hA := (H.operand ha hsa true).1
  have hB := (H.operand hb hsb (isCirc a)).1
  have hc := h2.valid_iff.1 ⟨s, hs⟩
  have hword : ∀ q, Connectable (wireWord (shapes ctr n) q (parts true a sa.length) ++ wireWord (shapes ctr n) q (parts (isCirc a) b sb.length)) :=
    fun q => by
      have := hc q
      unfold wireWord at this ⊢
      rwa [List.flatMap_append] at this
  have hcs : ∀ q, _ ∧ _ ∧ _ := fun q => List.isChain_append.1 (hword q)
  have e1 := (hA.like' (fun q => (hcs q).1) q).last
  have e2 := (hB.like' (fun q => (hcs q).2.1) q).head
  exact (hcs q).2.2 p (by rw [← e1, hp]; rfl) p (by rw [← e2, hp']; rfl) rfl

end

/-- The conditions of `two_steps`: what `b` creates is not there after `a`. -/
theorem fresh_free {sa sb : List (List Letter)} {qa qb : List Int} {P : List Int}
    {ten : List Nat → R} (hc : ∀ q, Connectable (portsAt sa qa q ++ portsAt sb qb q))
    (hP : ∀ q, q ∈ P ↔ (portsAt sa qa q ++ portsAt sb qb q).head? = some .inp) :
    (∀ q ∈ freshQubits sa qa, q ∉ P) ∧ ∀ q ∈ freshQubits sb qb, q ∉ (⟨ten, inQubits sa qa, outQubits sa qa⟩ : Act R).after P := by
  constructor
  · intro q hq hp
    rw [mem_freshQubits] at hq
    rw [hP, List.head?_append, hq] at hp
    cases hp
  · intro q hq hp
    rw [mem_freshQubits] at hq
    rw [mem_after] at hp
    rcases hp with ⟨hp, hn⟩ | hp
    · rw [hP, List.head?_append] at hp
      cases h : (portsAt sa qa q).head? with
      | none =>
        rw [h, hq] at hp
        cases hp
      | some x =>
        rw [h] at hp
        cases hp
        exact hn (mem_inQubits.2 h)
    · exact (List.isChain_append.1 (hc q)).2.2 .out (by rw [mem_outQubits.1 hp]; rfl) .out (by rw [hq]; rfl) rfl

/-- **C55.**  `a | b` of two operations on density matrices.  The qubits of circuits keep their names if the left operand is a circuit, those
of other operands are called 0, 1, … (`names`).  If no two outputs and no two inputs meet, the result is a valid circuit that acts as `a`
followed by `b`.  Partial: operations of `a` must not have been given by hand a name of the form `(t, qubits)` (C39). -/
theorem c55_or_partial (ha : DensBuilt ctr k n a) (hb : DensBuilt ctr k n b) (hsa : shapes ctr n a = .ok sa) (hsb : shapes ctr n b = .ok sb)
    (hst : ∀ d, a = .circ d → Circ.Stamped d)
    (hc : ∀ q, Connectable (portsAt sa (names true a sa.length) q ++ portsAt sb (names (isCirc a) b sb.length) q)) :
    ∃ c, orOper (shapes ctr n) a b = .ok c ∧ DensBuilt ctr k (n + 1) (.circ c) ∧
      (∀ q, q ∈ qubitsOf c ↔ q ∈ names true a sa.length ∨ q ∈ names (isCirc a) b sb.length) ∧
      (∀ q, q ∈ circIns (shapes ctr n) c ↔
        (portsAt sa (names true a sa.length) q ++ portsAt sb (names (isCirc a) b sb.length) q).head? = some .inp) ∧
      (∀ q, q ∈ circOuts (shapes ctr n) c ↔
        (portsAt sa (names true a sa.length) q ++ portsAt sb (names (isCirc a) b sb.length) q).getLast? = some .out) ∧
      ∀ u v u' v' : Int → Nat, Good u → Good u' → densMatrix ctr (n + 1) (.circ c) ((circOuts (shapes ctr n) c).map u ++
          (circIns (shapes ctr n) c).map v ++ (circOuts (shapes ctr n) c).map u' ++ (circIns (shapes ctr n) c).map v') =
        (actAt ctr n b (names (isCirc a) b sb.length)).applyDens ((actAt ctr n a (names true a sa.length)).applyDens
          (basisDens (circIns (shapes ctr n) c) v v')) u u' := by
  have H := kind_dens (ctr := ctr) k
  obtain ⟨c, h1, h2, h3, ⟨s, hs⟩, h5, h6, h7⟩ := H.or_wires ha hb hsa hsb hst hc
  have hi : ∀ q, q ∈ circIns (shapes ctr n) c ↔
      (portsAt sa (names true a sa.length) q ++ portsAt sb (names (isCirc a) b sb.length) q).head? = some .inp := fun q => by
    rw [Circ.mem_circIns, (h7 q).head]
  refine ⟨c, h1, h2, h6, hi, fun q => by rw [Circ.mem_circOuts, (h7 q).last], fun u v u' v' hu hu' => ?_⟩
  have key := Circ.circDens_attached h3 hs Function.injective_id (densMatrix ctr n) v v' u u'
  simp only [List.map_id, renamed_id] at key
  refine Eq.trans key ?_
  obtain ⟨k1, k2⟩ := fresh_free (ten := densMatrix ctr n a) hc hi
  rw [h5.acts, List.map_append, two_steps_dens (H.operand ha hsa true).2 (H.operand hb hsb (isCirc a)).2 v v' k1 k2 hu hu']
  unfold actAt
  rw [show shapeD (shapes ctr n) a = sa by simp [shapeD, hsa], show shapeD (shapes ctr n) b = sb by simp [shapeD, hsb]]

/-- **C55** for pure operations. -/
theorem c55_or_pure_partial (ha : Built ctr n false a) (hb : Built ctr n false b) (hsa : shapes ctr n a = .ok sa) (hsb : shapes ctr n b = .ok sb)
    (hst : ∀ d, a = .circ d → Circ.Stamped d)
    (hc : ∀ q, Connectable (portsAt sa (names true a sa.length) q ++ portsAt sb (names (isCirc a) b sb.length) q)) :
    ∃ c, orOper (shapes ctr n) a b = .ok c ∧ Built ctr (n + 1) false (.circ c) ∧
      (∀ q, q ∈ qubitsOf c ↔ q ∈ names true a sa.length ∨ q ∈ names (isCirc a) b sb.length) ∧
      (∀ q, q ∈ circIns (shapes ctr n) c ↔
        (portsAt sa (names true a sa.length) q ++ portsAt sb (names (isCirc a) b sb.length) q).head? = some .inp) ∧
      (∀ q, q ∈ circOuts (shapes ctr n) c ↔
        (portsAt sa (names true a sa.length) q ++ portsAt sb (names (isCirc a) b sb.length) q).getLast? = some .out) ∧
      ∀ u v : Int → Nat, Good u → matrix ctr (n + 1) (.circ c) ((circOuts (shapes ctr n) c).map u ++ (circIns (shapes ctr n) c).map v) =
        (Act.apply ⟨matrix ctr n b, inQubits sb (names (isCirc a) b sb.length), outQubits sb (names (isCirc a) b sb.length)⟩
          (Act.apply ⟨matrix ctr n a, inQubits sa (names true a sa.length), outQubits sa (names true a sa.length)⟩
            (basisState (circIns (shapes ctr n) c) v))) u := by
  have H := kind_pure (ctr := ctr)
  obtain ⟨c, h1, h2, h3, ⟨s, hs⟩, h5, h6, h7⟩ := H.or_wires ha hb hsa hsb hst hc
  have hi : ∀ q, q ∈ circIns (shapes ctr n) c ↔
      (portsAt sa (names true a sa.length) q ++ portsAt sb (names (isCirc a) b sb.length) q).head? = some .inp := fun q => by
    rw [Circ.mem_circIns, (h7 q).head]
  refine ⟨c, h1, h2, h6, hi, fun q => by rw [Circ.mem_circOuts, (h7 q).last], fun u v hu => ?_⟩
  have key := Circ.circMat_attached h3 hs Function.injective_id (matrix ctr n) v u
  simp only [List.map_id, renamed_id] at key
  refine Eq.trans key ?_
  obtain ⟨k1, k2⟩ := fresh_free (ten := matrix ctr n a) hc hi
  rw [h5.acts, List.map_append]
  exact two_steps (H.operand ha hsa true).2 (H.operand hb hsb (isCirc a)).2 (basisState_dependsOn _ _) k1 k2 hu

/-- **C55.**  If an output meets an output, or an input an input, `a | b` is no valid circuit: its shape is an error. -/
theorem c55_or_invalid (ha : DensBuilt ctr k n a) (hb : DensBuilt ctr k n b) (hsa : shapes ctr n a = .ok sa) (hsb : shapes ctr n b = .ok sb)
    (hst : ∀ d, a = .circ d → Circ.Stamped d) {q : Int} {p : Port} (hp : (portsAt sa (names true a sa.length) q).getLast? = some p)
    (hp' : (portsAt sb (names (isCirc a) b sb.length) q).head? = some p) :
    ∃ c e, orOper (shapes ctr n) a b = .ok c ∧ Circ.shape (shapes ctr n) c = .error e := by
  obtain ⟨c, h1, h2⟩ := (kind_dens (ctr := ctr) k).or_invalid ha hb hsa hsb hst hp hp'
  cases h : Circ.shape (shapes ctr n) c with
  | error e => exact ⟨c, e, h1, h⟩
  | ok s => exact absurd h (h2 s)

/-! ### Products of matrices -/

theorem names_sorted (keep : Bool) (op : Oper R) (m : Nat) : (names keep op m).Pairwise (· < ·) := by
  have hr : (rangeQubits 0 m).Pairwise (· < ·) := by
    rw [rangeQubits_eq, List.pairwise_map]
    exact List.pairwise_lt_range.imp fun h => by exact_mod_cast h
  cases keep with
  | false => exact hr
  | true =>
    cases op with
    | circ d => exact Circ.qubitsOf_sorted d
    | _ => exact hr

/-- All outputs of the first are inputs of the second, and no others are. -/
theorem full_wires {qa qb : List Int} (hm : outQubits sa qa = inQubits sb qb) (hca : ∀ q, Connectable (portsAt sa qa q))
    (hcb : ∀ q, Connectable (portsAt sb qb q)) : (∀ q, Connectable (portsAt sa qa q ++ portsAt sb qb q)) ∧
      (∀ q, (portsAt sa qa q ++ portsAt sb qb q).head? = some .inp ↔ q ∈ inQubits sa qa) ∧
      ∀ q, (portsAt sa qa q ++ portsAt sb qb q).getLast? = some .out ↔ q ∈ outQubits sb qb := by
  have key : ∀ q, (portsAt sa qa q).getLast? = some .out ↔ (portsAt sb qb q).head? = some .inp := fun q => by
    rw [← mem_outQubits, ← mem_inQubits, hm]
  refine ⟨fun q => isChain_append (hca q) (hcb q) fun x hx hy => ?_, fun q => ?_, fun q => ?_⟩
  · have := key q
    rw [hx, hy] at this
    cases x <;> simp at this
  · rw [List.head?_append, mem_inQubits]
    cases h : portsAt sa qa q with
    | nil =>
      have := key q
      rw [h] at this
      simp only [List.getLast?_nil, reduceCtorEq, false_iff] at this
      simp [this]
    | cons x w => simp
  · rw [List.getLast?_append, mem_outQubits]
    cases h : (portsAt sb qb q).getLast? with
    | none =>
      rw [List.getLast?_eq_none_iff] at h
      have := key q
      rw [h] at this
      simp only [List.head?_nil, reduceCtorEq, iff_false] at this
      simp [this]
    | some x => simp

theorem apply_basis {p : Act R} (hn : p.ins.Nodup) {v : Int → Nat} (hv : ∀ q ∈ p.ins, v q < 2) (w : Int → Nat) :
    p.apply (basisState p.ins v) w = p.ten (p.outs.map w ++ p.ins.map v) := by
  unfold Act.apply basisState
  have : (fun x : Int → Nat => p.ten (p.outs.map w ++ p.ins.map x) * if ∀ q ∈ p.ins, x q = v q then (1 : R) else 0) =
      fun x => if p.ins.map x = p.ins.map v then p.ten (p.outs.map w ++ p.ins.map v) else 0 := by
    funext x
    by_cases h : ∀ q ∈ p.ins, x q = v q
    · rw [if_pos h, if_pos (List.map_congr_left h), mul_one, List.map_congr_left h]
    · rw [if_neg h, if_neg fun hm => h fun q hq => List.map_inj_left.1 hm q hq, mul_zero]
  rw [this]
  exact sumOver_pin (fun q hq => by simpa [bits] using hv q hq) hn (fun _ => p.ten (p.outs.map w ++ p.ins.map v)) w

theorem applyDens_basis {p : Act R} (hn : p.ins.Nodup) {v v' : Int → Nat} (hv : Good v) (hv' : Good v') (w w' : Int → Nat) :
    p.applyDens (basisDens p.ins v v') w w' = p.ten (p.outs.map w ++ p.ins.map v ++ p.outs.map w' ++ p.ins.map v') := by
  rw [← splitDens_join (p.applyDens _), ← Act.twice_apply, ← basisState_twice]
  refine Eq.trans (apply_basis (p := p.twice) (twice_nodup hn) (fun q _ => joinAsg_good hv hv' q) _) ?_
  rw [twice_ten]
  simp only [joinAsg_even, joinAsg_odd]

theorem filter_sorted {l : List Int} (h : l.Pairwise (· < ·)) (p : Int → Bool) : (l.filter p).Pairwise (· < ·) := h.filter p

/-- **C55.**  If the outputs of `a` are the inputs of `b`, then `a | b` has the product of the matrices: first `a`, then `b`. -/
theorem c55_product_partial (ha : Built ctr n false a) (hb : Built ctr n false b) (hsa : shapes ctr n a = .ok sa) (hsb : shapes ctr n b = .ok sb)
    (hst : ∀ d, a = .circ d → Circ.Stamped d)
    (hca : ∀ q, Connectable (portsAt sa (names true a sa.length) q)) (hcb : ∀ q, Connectable (portsAt sb (names (isCirc a) b sb.length) q))
    (hm : outQubits sa (names true a sa.length) = inQubits sb (names (isCirc a) b sb.length)) :
    ∃ c, orOper (shapes ctr n) a b = .ok c ∧ Built ctr (n + 1) false (.circ c) ∧
      circIns (shapes ctr n) c = inQubits sa (names true a sa.length) ∧ circOuts (shapes ctr n) c = outQubits sb (names (isCirc a) b sb.length) ∧
      ∀ x z : List Nat, Bits x (circOuts (shapes ctr n) c).length → Bits z (circIns (shapes ctr n) c).length →
        matrix ctr (n + 1) (.circ c) (x ++ z) =
          sumIdx (List.replicate (outQubits sa (names true a sa.length)).length 2) fun y => matrix ctr n b (x ++ y) * matrix ctr n a (y ++ z) := by
  obtain ⟨w1, w2, w3⟩ := full_wires hm hca hcb
  obtain ⟨c, h1, h2, -, h4, h5, h6⟩ := c55_or_pure_partial ha hb hsa hsb hst w1
  have hi : circIns (shapes ctr n) c = inQubits sa (names true a sa.length) :=
    Circ.sorted_unique (Circ.circIns_sorted _ _) ((names_sorted _ _ _).filter _) fun q => (h4 q).trans (w2 q)
  have ho : circOuts (shapes ctr n) c = outQubits sb (names (isCirc a) b sb.length) :=
    Circ.sorted_unique (Circ.circOuts_sorted _ _) ((names_sorted _ _ _).filter _) fun q => (h5 q).trans (w3 q)
  refine ⟨c, h1, h2, hi, ho, fun x z hx hz => ?_⟩
  have ni := Circ.nodup_of_sorted (Circ.circIns_sorted (shapes ctr n) c)
  have no := Circ.nodup_of_sorted (Circ.circOuts_sorted (shapes ctr n) c)
  have ex := map_readAt no hx.1.ge
  have ez := map_readAt ni hz.1.ge
  rw [← hx.1, List.take_length] at ex
  rw [← hz.1, List.take_length] at ez
  have key := h6 (readAt (circOuts (shapes ctr n) c) x) (readAt (circIns (shapes ctr n) c) z) (fun q => readAt_bits hx.2 q)
  rw [ex, ez] at key
  rw [key, hi]
  have hA := apply_basis (R := R) (p := ⟨matrix ctr n a, inQubits sa (names true a sa.length), outQubits sa (names true a sa.length)⟩)
    (hi ▸ ni) (v := readAt (inQubits sa (names true a sa.length)) z) fun q _ => readAt_bits hz.2 q
  rw [funext hA]
  rw [hi] at ez
  rw [ho] at ex
  dsimp only at *
  rw [ez]
  unfold Act.apply
  dsimp only
  rw [ho, ex, ← hm]
  have nq : (outQubits sa (names true a sa.length)).Nodup := Circ.nodup_of_sorted ((names_sorted _ _ _).filter _)
  exact sum_bits nq (fun y => matrix ctr n b (x ++ y) * matrix ctr n a (y ++ z)) _

/-- **C55.**  The same for operations on density matrices. -/
theorem c55_product_density_partial (ha : DensBuilt ctr k n a) (hb : DensBuilt ctr k n b) (hsa : shapes ctr n a = .ok sa) (hsb : shapes ctr n b = .ok sb)
    (hst : ∀ d, a = .circ d → Circ.Stamped d)
    (hca : ∀ q, Connectable (portsAt sa (names true a sa.length) q)) (hcb : ∀ q, Connectable (portsAt sb (names (isCirc a) b sb.length) q))
    (hm : outQubits sa (names true a sa.length) = inQubits sb (names (isCirc a) b sb.length)) :
    ∃ c, orOper (shapes ctr n) a b = .ok c ∧ DensBuilt ctr k (n + 1) (.circ c) ∧
      circIns (shapes ctr n) c = inQubits sa (names true a sa.length) ∧ circOuts (shapes ctr n) c = outQubits sb (names (isCirc a) b sb.length) ∧
      ∀ x z x' z' : List Nat, Bits x (circOuts (shapes ctr n) c).length → Bits z (circIns (shapes ctr n) c).length →
        Bits x' (circOuts (shapes ctr n) c).length → Bits z' (circIns (shapes ctr n) c).length →
        densMatrix ctr (n + 1) (.circ c) (x ++ z ++ x' ++ z') =
          sumIdx (List.replicate (outQubits sa (names true a sa.length)).length 2) fun y =>
            sumIdx (List.replicate (outQubits sa (names true a sa.length)).length 2) fun y' =>
              densMatrix ctr n b (x ++ y ++ x' ++ y') * densMatrix ctr n a (y ++ z ++ y' ++ z') := by
  obtain ⟨w1, w2, w3⟩ := full_wires hm hca hcb
  obtain ⟨c, h1, h2, -, h4, h5, h6⟩ := c55_or_partial ha hb hsa hsb hst w1
  have hi : circIns (shapes ctr n) c = inQubits sa (names true a sa.length) :=
    Circ.sorted_unique (Circ.circIns_sorted _ _) ((names_sorted _ _ _).filter _) fun q => (h4 q).trans (w2 q)
  have ho : circOuts (shapes ctr n) c = outQubits sb (names (isCirc a) b sb.length) :=
    Circ.sorted_unique (Circ.circOuts_sorted _ _) ((names_sorted _ _ _).filter _) fun q => (h5 q).trans (w3 q)
  refine ⟨c, h1, h2, hi, ho, fun x z x' z' hx hz hx' hz' => ?_⟩
  have ni := Circ.nodup_of_sorted (Circ.circIns_sorted (shapes ctr n) c)
  have no := Circ.nodup_of_sorted (Circ.circOuts_sorted (shapes ctr n) c)
  have back : ∀ {l : List Int}, l.Nodup → ∀ {x : List Nat}, Bits x l.length → l.map (readAt l x) = x := fun {_} hn {x} hx => by
    have := map_readAt hn hx.1.ge
    rwa [← hx.1, List.take_length] at this
  have key := h6 (readAt (circOuts (shapes ctr n) c) x) (readAt (circIns (shapes ctr n) c) z) (readAt (circOuts (shapes ctr n) c) x')
    (readAt (circIns (shapes ctr n) c) z') (fun q => readAt_bits hx.2 q) (fun q => readAt_bits hx'.2 q)
  rw [back no hx, back no hx', back ni hz, back ni hz'] at key
  rw [key]
  have hda : shapeD (shapes ctr n) a = sa := by simp [shapeD, hsa]
  have hdb : shapeD (shapes ctr n) b = sb := by simp [shapeD, hsb]
  unfold actAt
  rw [hda, hdb]
  have hA := applyDens_basis (R := R) (p := ⟨densMatrix ctr n a, inQubits sa (names true a sa.length), outQubits sa (names true a sa.length)⟩)
    (hi ▸ ni) (v := readAt (circIns (shapes ctr n) c) z) (v' := readAt (circIns (shapes ctr n) c) z') (fun q => readAt_bits hz.2 q) fun q => readAt_bits hz'.2 q
  dsimp only at hA
  rw [← hi, back ni hz, back ni hz', hi] at hA
  rw [hi]
  rw [hi] at hz hz' ni
  rw [funext fun w => funext fun w' => hA w w']
  unfold Act.applyDens
  dsimp only
  rw [ho] at hx hx' no ⊢
  rw [back no hx, back no hx', ← hm]
  have nq : (outQubits sa (names true a sa.length)).Nodup := Circ.nodup_of_sorted ((names_sorted _ _ _).filter _)
  rw [← sum_bits nq _ (readAt (outQubits sb (names (isCirc a) b sb.length)) x)]
  refine sumOver_congr fun y => ?_
  rw [← sum_bits nq _ (readAt (outQubits sb (names (isCirc a) b sb.length)) x')]

/-! ### Tensor products -/

theorem apply_mul {p : Act R} {f g : (Int → Nat) → R} (hg : Indep g p.ins) (u : Int → Nat) :
    p.apply (fun w => f w * g w) u = p.apply f u * g u := by
  unfold Act.apply
  simp only [← mul_assoc]
  exact sumOver_mul_right_indep hg

/-- Two operations on different qubits. -/
theorem two_apart {A B : Act R} (hA : A.ins.Nodup) (hB : B.ins.Nodup) (h1 : ∀ q ∈ A.ins, q ∉ B.ins) (h2 : ∀ q ∈ A.outs, q ∉ B.ins)
    {v : Int → Nat} (hv : Good v) (u : Int → Nat) :
    B.apply (A.apply fun w => basisState A.ins v w * basisState B.ins v w) u =
      A.ten (A.outs.map u ++ A.ins.map v) * B.ten (B.outs.map u ++ B.ins.map v) := by
  have e1 : (A.apply fun w => basisState A.ins v w * basisState B.ins v w) =
      fun w => basisState B.ins v w * A.ten (A.outs.map w ++ A.ins.map v) := by
    funext w
    rw [apply_mul, apply_basis hA fun q _ => hv q, mul_comm]
    intro x y hxy
    refine basisState_dependsOn _ _ _ _ fun q hq => hxy q fun hc => h1 q hc hq
  rw [e1, apply_mul, apply_basis hB fun q _ => hv q, mul_comm]
  intro x y hxy
  have : A.outs.map x = A.outs.map y := List.map_congr_left fun q hq => hxy q (h2 q hq)
  simp only [this]

theorem basisState_split {P Q S : List Int} (h : ∀ q, q ∈ S ↔ q ∈ P ∨ q ∈ Q) (v : Int → Nat) :
    (basisState S v : (Int → Nat) → R) = fun w => basisState P v w * basisState Q v w := by
  funext w
  unfold basisState
  by_cases hP : ∀ q ∈ P, w q = v q
  · rw [if_pos hP, one_mul]
    refine if_congr ⟨fun hs q hq => hs q ((h q).2 (Or.inr hq)), fun hq q hs => ((h q).1 hs).elim (hP q) (hq q)⟩ rfl rfl
  · rw [if_neg hP, zero_mul, if_neg fun hs => hP fun q hq => hs q ((h q).2 (Or.inl hq))]

theorem two_apart_dens {A B : Act R} (hA : A.ins.Nodup) (hB : B.ins.Nodup) (h1 : ∀ q ∈ A.ins, q ∉ B.ins) (h2 : ∀ q ∈ A.outs, q ∉ B.ins)
    {S : List Int} (hS : ∀ q, q ∈ S ↔ q ∈ A.ins ∨ q ∈ B.ins) {v v' : Int → Nat} (hv : Good v) (hv' : Good v') (u u' : Int → Nat) :
    B.applyDens (A.applyDens (basisDens S v v')) u u' =
      A.ten (A.outs.map u ++ A.ins.map v ++ A.outs.map u' ++ A.ins.map v') * B.ten (B.outs.map u ++ B.ins.map v ++ B.outs.map u' ++ B.ins.map v') := by
  rw [← splitDens_join (B.applyDens _), ← Act.twice_apply, ← Act.twice_apply, ← basisState_twice,
    basisState_split (P := A.twice.ins) (Q := B.twice.ins) fun q => by
      rw [mem_twice, hS]
      exact or_congr mem_twice.symm mem_twice.symm]
  refine Eq.trans (two_apart (twice_nodup hA) (twice_nodup hB) (fun q hq hc => h1 _ (mem_twice.1 hq) (mem_twice.1 hc))
    (fun q hq hc => h2 _ (mem_twice.1 hq) (mem_twice.1 hc)) (joinAsg_good hv hv') _) ?_
  rw [twice_ten, twice_ten]
  simp only [joinAsg_even, joinAsg_odd]

theorem mem_rangeQubits {x m : Nat} {q : Int} : q ∈ rangeQubits x m ↔ (x : Int) ≤ q ∧ q < x + m := by
  unfold rangeQubits
  simp only [List.mem_map, List.mem_range'_1]
  constructor
  · rintro ⟨i, ⟨h1, h2⟩, rfl⟩
    omega
  · intro h
    exact ⟨q.toNat, by omega, by omega⟩

theorem rangeQubits_sorted (x m : Nat) : (rangeQubits x m).Pairwise (· < ·) := by
  unfold rangeQubits
  rw [List.pairwise_map]
  exact (List.pairwise_lt_range' (s := x) (n := m)).imp fun h => by exact_mod_cast h

theorem append_sorted {P Q : List Int} (hP : P.Pairwise (· < ·)) (hQ : Q.Pairwise (· < ·)) {x : Int} (h1 : ∀ q ∈ P, q < x) (h2 : ∀ q ∈ Q, x ≤ q) :
    (P ++ Q).Pairwise (· < ·) :=
  List.pairwise_append.2 ⟨hP, hQ, fun p hp q hq => lt_of_lt_of_le (h1 p hp) (h2 q hq)⟩

/-- The circuit made by `a * b`. -/
def side (a b : Oper R) (la lb : Nat) : Circ (Oper R) :=
  [(Circ.autoName 0 (rangeQubits 0 la), ⟨a, 0, rangeQubits 0 la⟩), (Circ.autoName 0 (rangeQubits la lb), ⟨b, 0, rangeQubits la lb⟩)]

theorem mulOper_side {sh : Circ.ShapeFn (Oper R)} (hsa : sh a = .ok sa) (hsb : sh b = .ok sb) (h0 : sa ≠ [] ∨ sb ≠ []) :
    mulOper sh a b = .ok (side a b sa.length sb.length) ∧ (Dict.keys (side a b sa.length sb.length)).Nodup := by
  have hne : rangeQubits 0 sa.length ≠ rangeQubits sa.length sb.length := fun e => by
    have el := congrArg List.length e
    simp only [rangeQubits, List.length_map, List.length_range'] at el
    have hpos : 0 < sa.length := by
      rcases h0 with h0 | h0
      · exact List.length_pos_iff.2 h0
      · rw [el]; exact List.length_pos_iff.2 h0
    have : (0 : Int) ∈ rangeQubits sa.length sb.length := by rw [← e, mem_rangeQubits]; omega
    rw [mem_rangeQubits] at this
    omega
  have hnn : Circ.autoName 0 (rangeQubits 0 sa.length) ≠ Circ.autoName 0 (rangeQubits sa.length sb.length) := fun e => hne (Circ.autoName_inj e).2
  have hnd : ∀ x m, (rangeQubits x m).Nodup := fun x m => Circ.nodup_of_sorted (rangeQubits_sorted x m)
  have hl : ∀ x m, (rangeQubits x m).length = m := fun x m => by simp [rangeQubits]
  constructor
  · unfold mulOper
    rw [hsa]
    dsimp only
    unfold Circ.append
    simp only [Option.getD_some, Option.getD_none]
    rw [if_neg (by simp [hnd]), hsa]
    dsimp only
    rw [if_neg (by simp [hl])]
    dsimp only
    rw [hsb]
    dsimp only
    rw [if_neg (by simp [hnd]), if_neg (by simp [hl])]
    simp [Dict.set, side, hnn]
  · simp [side, Dict.keys, hnn]

section

variable {ok : Nat → Oper R → Prop} {ten : Nat → Oper R → List Nat → R} {U : Act R → List Int → List (Act R) → Prop} (H : Kind ctr ok ten U)

include H

theorem Kind.mul_wires (ha : ok n a) (hb : ok n b) (hsa : shapes ctr n a = .ok sa) (hsb : shapes ctr n b = .ok sb)
    (hca : ∀ q, Connectable (portsAt sa (rangeQubits 0 sa.length) q)) (hcb : ∀ q, Connectable (portsAt sb (rangeQubits sa.length sb.length) q))
    (h0 : sa ≠ [] ∨ sb ≠ []) :
    ok (n + 1) (.circ (side a b sa.length sb.length)) ∧ Fitting (shapes ctr n) (side a b sa.length sb.length) ∧
      (∃ s, Circ.shape (shapes ctr n) (side a b sa.length sb.length) = .ok s) ∧
      qubitsOf (side a b sa.length sb.length) = rangeQubits 0 (sa.length + sb.length) ∧
      circIns (shapes ctr n) (side a b sa.length sb.length) = inQubits sa (rangeQubits 0 sa.length) ++ inQubits sb (rangeQubits sa.length sb.length) ∧
      circOuts (shapes ctr n) (side a b sa.length sb.length) = outQubits sa (rangeQubits 0 sa.length) ++ outQubits sb (rangeQubits sa.length sb.length) ∧
      (timeSorted (side a b sa.length sb.length)).map (fun p => actOf (shapes ctr n) (ten n) p.2) =
        [⟨ten n a, inQubits sa (rangeQubits 0 sa.length), outQubits sa (rangeQubits 0 sa.length)⟩,
          ⟨ten n b, inQubits sb (rangeQubits sa.length sb.length), outQubits sb (rangeQubits sa.length sb.length)⟩] := by
  have hda : shapeD (shapes ctr n) a = sa := by simp [shapeD, hsa]
  have hdb : shapeD (shapes ctr n) b = sb := by simp [shapeD, hsb]
  have hnd : ∀ x m, (rangeQubits x m).Nodup := fun x m => Circ.nodup_of_sorted (rangeQubits_sorted x m)
  have hl : ∀ x m, (rangeQubits x m).length = m := fun x m => by simp [rangeQubits]
  have hts : timeSorted (side a b sa.length sb.length) = side a b sa.length sb.length := by
    unfold timeSorted side
    simp
  have hf : Fitting (shapes ctr n) (side a b sa.length sb.length) := fun p hp => by
    rcases List.mem_cons.1 hp with rfl | hp
    · exact ⟨sa, hsa, (hl _ _).symm, hnd _ _⟩
    · obtain rfl := List.mem_singleton.1 hp
      exact ⟨sb, hsb, (hl _ _).symm, hnd _ _⟩
  have hword : ∀ q, wireWord (shapes ctr n) q (side a b sa.length sb.length) =
      portsAt sa (rangeQubits 0 sa.length) q ++ portsAt sb (rangeQubits sa.length sb.length) q := fun q => by
    show portsAt (shapeD (shapes ctr n) a) _ q ++ (portsAt (shapeD (shapes ctr n) b) _ q ++ []) = _
    rw [hda, hdb, List.append_nil]
  have apart : ∀ q, q ∈ rangeQubits 0 sa.length → q ∉ rangeQubits sa.length sb.length := fun q hq hc => by
    rw [mem_rangeQubits] at hq hc; omega
  have hv : ∃ s, Circ.shape (shapes ctr n) (side a b sa.length sb.length) = .ok s := by
    rw [Circ.c35_shape_iff hf]
    intro q
    refine ⟨(side a b sa.length sb.length).filter fun p => q ∈ p.2.qubits, ⟨List.Perm.refl _, ?_⟩, ?_⟩
    · unfold side
      by_cases h1 : q ∈ rangeQubits 0 sa.length
      · simp [h1, apart q h1]
      · rw [List.filter_cons_of_neg (by simp [h1])]
        exact (List.pairwise_singleton _ _).filter _
    · unfold side
      by_cases h1 : q ∈ rangeQubits 0 sa.length
      · rw [List.filter_cons_of_pos (by simp [h1]), List.filter_cons_of_neg (by simp [apart q h1]), List.filter_nil]
        show Connectable (portsAt (shapeD (shapes ctr n) a) _ q ++ [])
        rw [hda, List.append_nil]
        exact hca q
      · rw [List.filter_cons_of_neg (by simp [h1])]
        by_cases h2 : q ∈ rangeQubits sa.length sb.length
        · rw [List.filter_cons_of_pos (by simp [h2]), List.filter_nil]
          show Connectable (portsAt (shapeD (shapes ctr n) b) _ q ++ [])
          rw [hdb, List.append_nil]
          exact hcb q
        · rw [List.filter_cons_of_neg (by simp [h2]), List.filter_nil]
          exact List.isChain_nil
  have hone : ∀ q, portsAt sa (rangeQubits 0 sa.length) q = [] ∨ portsAt sb (rangeQubits sa.length sb.length) q = [] := fun q => by
    by_cases h1 : q ∈ rangeQubits 0 sa.length
    · exact Or.inr (portsAt_nil (apart q h1))
    · exact Or.inl (portsAt_nil h1)
  have lo : ∀ {p : Int → Bool} {q}, q ∈ (rangeQubits 0 sa.length).filter p → q < sa.length := fun {p} {q} hq => by
    have := mem_rangeQubits.1 (List.mem_filter.1 hq).1; omega
  have up : ∀ {p : Int → Bool} {q}, q ∈ (rangeQubits sa.length sb.length).filter p → (sa.length : Int) ≤ q := fun {p} {q} hq => by
    have := mem_rangeQubits.1 (List.mem_filter.1 hq).1; omega
  refine ⟨(H.circ n _).2 ⟨(mulOper_side hsa hsb h0).2, hv, fun p hp => ?_⟩, hf, hv, ?_, ?_, ?_, ?_⟩
  · rcases List.mem_cons.1 hp with rfl | hp
    · exact ⟨ha, hnd _ _, sa, hsa, (hl _ _).symm⟩
    · obtain rfl := List.mem_singleton.1 hp
      exact ⟨hb, hnd _ _, sb, hsb, (hl _ _).symm⟩
  · refine Circ.sorted_unique (Circ.qubitsOf_sorted _) (rangeQubits_sorted _ _) fun q => ?_
    rw [Circ.mem_qubitsOf]
    simp only [side, List.mem_cons, List.not_mem_nil, or_false, exists_eq_or_imp, exists_eq_left, mem_rangeQubits]
    push_cast
    omega
  · refine Circ.sorted_unique (Circ.circIns_sorted _ _) (append_sorted ((rangeQubits_sorted _ _).filter _) ((rangeQubits_sorted _ _).filter _)
      (fun q hq => lo hq) fun q hq => up hq) fun q => ?_
    rw [Circ.mem_circIns, hts, hword, List.mem_append, mem_inQubits, mem_inQubits]
    rcases hone q with e | e <;> rw [e] <;> simp
  · refine Circ.sorted_unique (Circ.circOuts_sorted _ _) (append_sorted ((rangeQubits_sorted _ _).filter _) ((rangeQubits_sorted _ _).filter _)
      (fun q hq => lo hq) fun q hq => up hq) fun q => ?_
    rw [Circ.mem_circOuts, hts, hword, List.mem_append, mem_outQubits, mem_outQubits]
    rcases hone q with e | e <;> rw [e] <;> simp
  · rw [hts]
    show [Act.mk _ (inQubits (shapeD (shapes ctr n) a) _) (outQubits (shapeD (shapes ctr n) a) _),
      Act.mk _ (inQubits (shapeD (shapes ctr n) b) _) (outQubits (shapeD (shapes ctr n) b) _)] = _
    rw [hda, hdb]

end

theorem back_append {P Q : List Int} (hn : (P ++ Q).Nodup) {x y : List Nat} (hx : x.length = P.length) (hy : y.length = Q.length) :
    P.map (readAt (P ++ Q) (x ++ y)) = x ∧ Q.map (readAt (P ++ Q) (x ++ y)) = y := by
  have := map_readAt hn (x := x ++ y) (by simp [hx, hy])
  rw [show (P ++ Q).length = (x ++ y).length by simp [hx, hy], List.take_length, List.map_append] at this
  exact List.append_inj this (by simp [hx])

theorem good_append {P : List Int} {x y : List Nat} {m m' : Nat} (hx : Bits x m) (hy : Bits y m') : Good (readAt P (x ++ y)) := fun q =>
  readAt_bits (fun b hb => (List.mem_append.1 hb).elim (hx.2 b) (hy.2 b)) q

/-- **C55.**  `a * b` of pure operations is their tensor product: `b` is on the qubits after those of `a`. -/
theorem c55_tensor (ha : Built ctr n false a) (hb : Built ctr n false b) (hsa : shapes ctr n a = .ok sa) (hsb : shapes ctr n b = .ok sb)
    (hca : ∀ q, Connectable (portsAt sa (rangeQubits 0 sa.length) q)) (hcb : ∀ q, Connectable (portsAt sb (rangeQubits sa.length sb.length) q))
    (h0 : sa ≠ [] ∨ sb ≠ []) :
    ∃ c, mulOper (shapes ctr n) a b = .ok c ∧ Built ctr (n + 1) false (.circ c) ∧ qubitsOf c = rangeQubits 0 (sa.length + sb.length) ∧
      circIns (shapes ctr n) c = inQubits sa (rangeQubits 0 sa.length) ++ inQubits sb (rangeQubits sa.length sb.length) ∧
      circOuts (shapes ctr n) c = outQubits sa (rangeQubits 0 sa.length) ++ outQubits sb (rangeQubits sa.length sb.length) ∧
      ∀ x y z w : List Nat, Bits x (outPlaces sa).length → Bits y (outPlaces sb).length → Bits z (inPlaces sa).length → Bits w (inPlaces sb).length →
        matrix ctr (n + 1) (.circ c) ((x ++ y) ++ (z ++ w)) = matrix ctr n a (x ++ z) * matrix ctr n b (y ++ w) := by
  obtain ⟨h1, h2, ⟨s, hs⟩, h4, h5, h6, h7⟩ := (kind_pure (ctr := ctr)).mul_wires ha hb hsa hsb hca hcb h0
  refine ⟨_, (mulOper_side hsa hsb h0).1, h1, h4, h5, h6, fun x y z w hx hy hz hw => ?_⟩
  have hnd : ∀ x m, (rangeQubits x m).Nodup := fun x m => Circ.nodup_of_sorted (rangeQubits_sorted x m)
  have hl : ∀ x m, (rangeQubits x m).length = m := fun x m => by simp [rangeQubits]
  have ni := Circ.nodup_of_sorted (Circ.circIns_sorted (shapes ctr n) (side a b sa.length sb.length))
  have no := Circ.nodup_of_sorted (Circ.circOuts_sorted (shapes ctr n) (side a b sa.length sb.length))
  rw [h5] at ni
  rw [h6] at no
  obtain ⟨e1, e2⟩ := back_append no (hx.1.trans (outQubits_length (hl _ _).symm (hnd _ _)).symm) (hy.1.trans (outQubits_length (hl _ _).symm (hnd _ _)).symm)
  obtain ⟨e3, e4⟩ := back_append ni (hz.1.trans (inQubits_length (hl _ _).symm (hnd _ _)).symm) (hw.1.trans (inQubits_length (hl _ _).symm (hnd _ _)).symm)
  have key := Circ.circMat_attached h2 hs Function.injective_id (matrix ctr n)
    (readAt (inQubits sa (rangeQubits 0 sa.length) ++ inQubits sb (rangeQubits sa.length sb.length)) (z ++ w))
    (readAt (outQubits sa (rangeQubits 0 sa.length) ++ outQubits sb (rangeQubits sa.length sb.length)) (x ++ y))
  simp only [List.map_id, renamed_id] at key
  rw [h5, h6, List.map_append, List.map_append, e1, e2, e3, e4, h7] at key
  refine Eq.trans key ?_
  rw [basisState_split fun q => List.mem_append]
  obtain ⟨ni1, ni2, ni3⟩ := List.nodup_append.1 ni
  refine Eq.trans (two_apart (A := ⟨matrix ctr n a, inQubits sa (rangeQubits 0 sa.length), outQubits sa (rangeQubits 0 sa.length)⟩)
    (B := ⟨matrix ctr n b, inQubits sb (rangeQubits sa.length sb.length), outQubits sb (rangeQubits sa.length sb.length)⟩) ni1 ni2
    (fun q hq hc => ni3 q hq q hc rfl) (fun q hq hc => ?_) (good_append hz hw) _) ?_
  · have k1 := mem_rangeQubits.1 (List.mem_filter.1 hq).1
    have k2 := mem_rangeQubits.1 (List.mem_filter.1 hc).1
    omega
  · dsimp only
    rw [e1, e2, e3, e4]

/-- **C55** for operations on density matrices. -/
theorem c55_tensor_density (ha : DensBuilt ctr k n a) (hb : DensBuilt ctr k n b) (hsa : shapes ctr n a = .ok sa) (hsb : shapes ctr n b = .ok sb)
    (hca : ∀ q, Connectable (portsAt sa (rangeQubits 0 sa.length) q)) (hcb : ∀ q, Connectable (portsAt sb (rangeQubits sa.length sb.length) q))
    (h0 : sa ≠ [] ∨ sb ≠ []) :
    ∃ c, mulOper (shapes ctr n) a b = .ok c ∧ DensBuilt ctr k (n + 1) (.circ c) ∧ qubitsOf c = rangeQubits 0 (sa.length + sb.length) ∧
      circIns (shapes ctr n) c = inQubits sa (rangeQubits 0 sa.length) ++ inQubits sb (rangeQubits sa.length sb.length) ∧
      circOuts (shapes ctr n) c = outQubits sa (rangeQubits 0 sa.length) ++ outQubits sb (rangeQubits sa.length sb.length) ∧
      ∀ x y z w x' y' z' w' : List Nat, Bits x (outPlaces sa).length → Bits y (outPlaces sb).length → Bits z (inPlaces sa).length →
        Bits w (inPlaces sb).length → Bits x' (outPlaces sa).length → Bits y' (outPlaces sb).length → Bits z' (inPlaces sa).length →
        Bits w' (inPlaces sb).length →
        densMatrix ctr (n + 1) (.circ c) ((x ++ y) ++ (z ++ w) ++ (x' ++ y') ++ (z' ++ w')) =
          densMatrix ctr n a (x ++ z ++ x' ++ z') * densMatrix ctr n b (y ++ w ++ y' ++ w') := by
  obtain ⟨h1, h2, ⟨s, hs⟩, h4, h5, h6, h7⟩ := (kind_dens (ctr := ctr) k).mul_wires ha hb hsa hsb hca hcb h0
  refine ⟨_, (mulOper_side hsa hsb h0).1, h1, h4, h5, h6, fun x y z w x' y' z' w' hx hy hz hw hx' hy' hz' hw' => ?_⟩
  have hnd : ∀ x m, (rangeQubits x m).Nodup := fun x m => Circ.nodup_of_sorted (rangeQubits_sorted x m)
  have hl : ∀ x m, (rangeQubits x m).length = m := fun x m => by simp [rangeQubits]
  have ni := Circ.nodup_of_sorted (Circ.circIns_sorted (shapes ctr n) (side a b sa.length sb.length))
  have no := Circ.nodup_of_sorted (Circ.circOuts_sorted (shapes ctr n) (side a b sa.length sb.length))
  rw [h5] at ni
  rw [h6] at no
  have lo : ∀ {x y : List Nat}, Bits x (outPlaces sa).length → Bits y (outPlaces sb).length → _ ∧ _ := fun hx hy =>
    back_append no (hx.1.trans (outQubits_length (hl _ _).symm (hnd _ _)).symm) (hy.1.trans (outQubits_length (hl _ _).symm (hnd _ _)).symm)
  have li : ∀ {x y : List Nat}, Bits x (inPlaces sa).length → Bits y (inPlaces sb).length → _ ∧ _ := fun hx hy =>
    back_append ni (hx.1.trans (inQubits_length (hl _ _).symm (hnd _ _)).symm) (hy.1.trans (inQubits_length (hl _ _).symm (hnd _ _)).symm)
  have key := Circ.circDens_attached h2 hs Function.injective_id (densMatrix ctr n)
    (readAt (inQubits sa (rangeQubits 0 sa.length) ++ inQubits sb (rangeQubits sa.length sb.length)) (z ++ w))
    (readAt (inQubits sa (rangeQubits 0 sa.length) ++ inQubits sb (rangeQubits sa.length sb.length)) (z' ++ w'))
    (readAt (outQubits sa (rangeQubits 0 sa.length) ++ outQubits sb (rangeQubits sa.length sb.length)) (x ++ y))
    (readAt (outQubits sa (rangeQubits 0 sa.length) ++ outQubits sb (rangeQubits sa.length sb.length)) (x' ++ y'))
  simp only [List.map_id, renamed_id] at key
  rw [h5, h6, List.map_append, List.map_append, List.map_append, List.map_append, (lo hx hy).1, (lo hx hy).2, (lo hx' hy').1, (lo hx' hy').2,
    (li hz hw).1, (li hz hw).2, (li hz' hw').1, (li hz' hw').2, h7] at key
  refine Eq.trans key ?_
  obtain ⟨ni1, ni2, ni3⟩ := List.nodup_append.1 ni
  refine Eq.trans (two_apart_dens (A := ⟨densMatrix ctr n a, inQubits sa (rangeQubits 0 sa.length), outQubits sa (rangeQubits 0 sa.length)⟩)
    (B := ⟨densMatrix ctr n b, inQubits sb (rangeQubits sa.length sb.length), outQubits sb (rangeQubits sa.length sb.length)⟩) ni1 ni2
    (fun q hq hc => ni3 q hq q hc rfl) (fun q hq hc => ?_) (fun q => List.mem_append) (good_append hz hw) (good_append hz' hw') _ _) ?_
  · have k1 := mem_rangeQubits.1 (List.mem_filter.1 hq).1
    have k2 := mem_rangeQubits.1 (List.mem_filter.1 hc).1
    omega
  · dsimp only
    rw [(lo hx hy).1, (lo hx hy).2, (lo hx' hy').1, (lo hx' hy').2, (li hz hw).1, (li hz hw).2, (li hz' hw').1, (li hz' hw').2]

/-- **C55** fails for two operands without qubits: both get the name `(0, ())`, the left one is lost. -/
theorem c55_scalars_violated (x y : R) : mulOper (shapes ctr (n + 1)) (scalarOp x) (scalarOp y) = .ok [(Circ.autoName 0 [], ⟨scalarOp y, 0, []⟩)] ∧
    matrix ctr (n + 2) (.circ [(Circ.autoName 0 [], ⟨scalarOp y, 0, []⟩)]) [] = y := by
  refine ⟨?_, ?_⟩
  · unfold mulOper
    rfl
  · show (TVal.tot (.ten (some ⟨[], fun _ => y⟩)) [] * if ∀ q ∈ [], _ = _ then 1 else 0) = y
    rw [TVal.tot]
    simp

/-- The strings `i`, `o`, `io`, … of a shape can be connected on different qubits. -/
theorem connectable_words {s : List (List Letter)} {qs : List Int} (hn : qs.Nodup) (hw : ∀ w ∈ s, Connectable (w.flatMap Letter.ports)) (q : Int) :
    Connectable (portsAt s qs q) := by
  by_cases h : ∃ w, (q, w) ∈ qs.zip s
  · obtain ⟨w, h⟩ := h
    rw [portsAt_mem hn h]
    exact hw w (List.of_mem_zip h).2
  · unfold portsAt
    rw [List.filter_eq_nil_iff.2 fun p hp e => h ⟨p.2, by
      have : p.1 = q := by simpa using e
      rw [← this]; exact hp⟩]
    exact List.isChain_nil

/-- The state 1, dephased: `c55_product_density_partial` (so `c55_or_partial`) applies. -/
example : ∃ c, orOper (shapes evalAll 1) (compState (R := ℚ) 1) (.imm exDeph [[.i, .o]]) = .ok c ∧ densMatrix evalAll 2 (.circ c) [1, 1] = 1 := by
  obtain ⟨c, h1, -, h3, h4, h5⟩ := c55_product_density_partial (ctr := evalAll) (k := 0) (n := 1) (a := compState (R := ℚ) 1) (b := .imm exDeph [[.i, .o]])
    (sa := [[.o]]) (sb := [[.i, .o]]) (dens_state 0 0 (by decide)) (by rw [DensBuilt]; rfl) rfl rfl (by intro d h; cases h)
    (connectable_words (by decide) (by unfold Connectable; decide)) (connectable_words (by decide) (by unfold Connectable; decide)) (by decide)
  have e3 : circIns (shapes evalAll 1) c = [] := h3.trans (by decide)
  have e4 : circOuts (shapes evalAll 1) c = [0] := h4.trans (by decide)
  rw [e3, e4] at h5
  refine ⟨c, h1, (h5 [1] [] [1] [] (by unfold Bits; decide) (by unfold Bits; decide) (by unfold Bits; decide) (by unfold Bits; decide)).trans ?_⟩
  decide +kernel

/-- An entangled pair beside a state: `c55_tensor` applies. -/
example : ∃ c, mulOper (shapes evalAll 1) (.pure exPair none) (compState 1) = .ok c ∧ matrix evalAll 2 (.circ c) [1, 1, 1] = 4 / 5 := by
  obtain ⟨c, h1, -, -, -, -, h5⟩ := c55_tensor (ctr := evalAll) (n := 1) (a := .pure exPair none) (b := compState (R := ℚ) 1)
    (sa := [[.o], [.o]]) (sb := [[.o]]) (by rw [Built]; exact ⟨exPair_ok, by decide⟩) (by unfold compState; rw [Built]; exact ⟨pureOk_state (by decide), by decide⟩) rfl rfl
    (connectable_words (by decide) (by unfold Connectable; decide)) (connectable_words (by decide) (by unfold Connectable; decide)) (by decide)
  refine ⟨c, h1, (h5 [1, 1] [1] [] [] (by unfold Bits; decide) (by unfold Bits; decide) (by unfold Bits; decide) (by unfold Bits; decide)).trans ?_⟩
  decide +kernel

/-- A circuit, whose qubit is called 3, followed by another one on the same qubit: `c55_product_partial` (so `c55_or_pure_partial`) applies; two states meet: `c55_or_invalid` applies. -/
example : (∃ c, orOper (shapes evalAll 2) (.circ [(.str "s", ⟨compState (R := ℚ) 1, 0, [3]⟩)]) (.circ [(.str "m", ⟨compMeas 1, 0, [3]⟩)]) = .ok c ∧
      matrix evalAll 3 (.circ c) [] = 1) ∧
    ∃ c e, orOper (shapes evalAll 1) (compState (R := ℚ) 1) (compState 0) = .ok c ∧ Circ.shape (shapes evalAll 1) c = .error e := by
  constructor
  · have hb : ∀ {op : Oper ℚ} {w : List Letter}, Built evalAll 1 false op → shapes evalAll 1 op = .ok [w] → w = [.i] ∨ w = [.o] → ∀ nm,
        Built evalAll 2 false (.circ [(nm, ⟨op, 0, [3]⟩)]) := fun {op w} h1 h2 hw nm => by
      rw [Built]
      refine ⟨by simp [Dict.keys], ?_, fun p hp => ?_, fun h => by cases h⟩
      · show ∃ s, Circ.shape (shapes evalAll 1) _ = _
        rw [Circ.c35_shape_iff fun p hp => by
          obtain rfl := List.mem_singleton.1 hp
          exact ⟨[w], h2, rfl, by simp⟩]
        intro q
        refine ⟨_, ⟨List.Perm.refl _, (List.pairwise_singleton _ _).filter _⟩, ?_⟩
        by_cases hq : q = 3
        · subst hq
          rw [List.filter_cons_of_pos (by simp), List.filter_nil]
          show Connectable (portsAt (shapeD (shapes evalAll 1) op) _ _ ++ [])
          rw [show shapeD (shapes evalAll 1) op = [w] by simp [shapeD, h2], List.append_nil, portsAt_one]
          rcases hw with rfl | rfl <;> (unfold Connectable; decide)
        · rw [List.filter_cons_of_neg (by simp [hq])]
          exact List.isChain_nil
      · obtain rfl := List.mem_singleton.1 hp
        exact ⟨h1, by simp, [w], h2, rfl⟩
    obtain ⟨c, h1, -, h3, h4, h5⟩ := c55_product_partial (ctr := evalAll) (n := 2) (a := .circ [(.str "s", ⟨compState (R := ℚ) 1, 0, [3]⟩)])
      (b := .circ [(.str "m", ⟨compMeas 1, 0, [3]⟩)]) (sa := [[.o]]) (sb := [[.i]])
      (hb (by unfold compState; rw [Built]; exact ⟨pureOk_state (by decide), by decide⟩) rfl (Or.inr rfl) _)
      (hb (by unfold compMeas; rw [Built]; exact ⟨pureOk_meas (by decide), by decide⟩) rfl (Or.inl rfl) _) rfl rfl
      (by rintro d h; cases h; intro n r hm t qs e; simp at hm; rw [hm.1] at e; cases e)
      (connectable_words (by decide) (by unfold Connectable; decide)) (connectable_words (by decide) (by unfold Connectable; decide)) (by decide)
    have e3 : circIns (shapes evalAll 2) c = [] := h3.trans (by decide)
    have e4 : circOuts (shapes evalAll 2) c = [] := h4.trans (by decide)
    rw [e3, e4] at h5
    refine ⟨c, h1, (h5 [] [] (by unfold Bits; decide) (by unfold Bits; decide)).trans ?_⟩
    decide +kernel
  · exact c55_or_invalid (ctr := evalAll) (k := 0) (n := 1) (sa := [[.o]]) (sb := [[.o]]) (dens_state 0 0 (by decide)) (dens_state 0 0 (by decide)) rfl rfl
      (by intro d h; cases h) (q := 0) (p := .out) (by decide) (by decide)

end Oper

end Verif
