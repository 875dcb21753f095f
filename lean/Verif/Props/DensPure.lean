import Verif.Lemmas.DensPure
import Verif.Props.Density
import Verif.Lemmas.Flat
/-!
# C37, C48: density representations of pure operations and of operations of all classes
-/

set_option linter.unusedSectionVars false

namespace Verif

variable {R : Type} [CommSemiring R] [StarRing R]

/-! ## C37 the density representation of one tensor -/

namespace TVal

/-- C37: `tensor_density` of an operation with the pure tensor `T` of shape `d` succeeds, has the shape `d ++ d`, and its
entry at `i ++ j` is `T[i]` times the conjugate of `T[j]`; `T` may be an array, a sum or a network that can be
flattened. -/
theorem c37_pure {G : TN.Glue} (hG : G.Sound) {k : Nat} {tp : TVal R} {d : List Nat} (hw : Whole tp)
    (hs : tp.shape = some (d.map some)) (he : ∀ tn, tp = ofTN tn → Expandable k tn) :
    ∃ D, densityPure G k tp = .ok D ∧ D.shape = some ((d ++ d).map some) ∧
      ∀ i j, InRange d i → InRange d j → D.tot (i ++ j) = tp.tot i * star (tp.tot j) := by
  obtain ⟨tc, hc⟩ := conj_total tp hw
  obtain ⟨te, e1, e2, e3⟩ := expandVal_conj hG hc he
  obtain ⟨tn, a1, a2, a3, a4⟩ := addNode_shift (o := false) (i := Nm.str "TP") (t := tp) hasDims_empty (by simp [Dict.keys])
    hs (by simp [Dict.keys])
  obtain ⟨tn', b1, b2, b3, b4⟩ := addNode_shift (o := false) (i := Nm.str "~TP") (t := te) (sh := d) a2
    (by rw [a3]; simp [Dict.keys]) (by rw [← hs]; exact e2) a4
  rw [List.nil_append] at a2 b2 b1 b3
  have hd : HasDims { tn' with openE := (List.range (2 * d.length)).map fun i : Nat => Nm.int i } (d ++ d) := b2
  have hlt : ∀ k ∈ List.range (2 * d.length), k < (d ++ d).length := fun k hk => by
    rw [List.mem_range] at hk; rw [List.length_append]; omega
  refine ⟨_, ?_, shape_range hd rfl hlt |>.trans ?_, fun i j hi hj => ?_⟩
  · unfold densityPure
    rw [hs]
    dsimp only
    rw [List.length_map, List.range_eq_range']
    have a1' : ({} : TN (TVal R)).addNode (some (.str "TP")) (.str "TP") (some ((List.range' 0 d.length).map fun i : Nat => Nm.int i)) tp false
      = (tn, .ok (.str "TP")) := a1
    have b1' : tn.addNode (some (.str "~TP")) (.str "~TP") (some ((List.range' d.length d.length).map fun i : Nat => Nm.int i)) te false
      = (tn', .ok (.str "~TP")) := b1
    rw [a1']
    dsimp only
    rw [hc]
    dsimp only
    rw [e1]
    dsimp only
    rw [b1']
  · congr 2
    have := rangeLegs_map_full (d ++ d)
    unfold rangeLegs at this
    rw [List.map_map, List.length_append, ← Nat.two_mul] at this
    rw [← this]
    exact List.map_congr_left fun k _ => by rw [this, Function.comp_apply, listAsg_int]
  · have hij : InRange (d ++ d) (i ++ j) := List.rel_append hi hj
    have li := hi.length_eq
    have lj := hj.length_eq
    rw [tot_ofTN]
    have h0 := open_at (f := TVal.tot) (tn := { tn' with openE := (List.range (2 * d.length)).map fun i : Nat => Nm.int i })
      (show tn'.edges.keys.Nodup from b4) hd rfl
      (fun k hk => by rw [List.mem_range]; rw [List.length_append] at hk; omega) hlt
      (fs := [⟨shiftLegs 0 d.length, tp.tot⟩, ⟨shiftLegs d.length d.length, te.tot⟩])
      (by unfold TN.factors; rw [b3, a3]; rfl) (by
        intro g hg e he
        simp only [List.mem_cons, List.not_mem_nil, or_false] at hg
        rw [mem_rangeLegs, List.length_append]
        rcases hg with rfl | rfl
        · obtain ⟨k, hk, rfl⟩ := mem_shiftLegs.1 he
          exact ⟨k, by omega, by simp⟩
        · obtain ⟨k, hk, rfl⟩ := mem_shiftLegs.1 he
          exact ⟨d.length + k, by omega, rfl⟩) hij
    have hop : (List.range (2 * d.length)).map (fun k => (i ++ j)[k]?.getD 0) = i ++ j := by
      have := rangeLegs_map_full (i ++ j)
      unfold rangeLegs at this
      rw [List.map_map, List.length_append, li, lj, ← Nat.two_mul] at this
      rw [← this]
      exact List.map_congr_left fun k _ => by rw [this, Function.comp_apply, listAsg_int]
    rw [hop] at h0
    rw [h0]
    have m1 : (shiftLegs 0 d.length).map (listAsg (i ++ j)) = i := by
      have : shiftLegs 0 d.length = rangeLegs d.length := by
        unfold shiftLegs rangeLegs; rw [List.range_eq_range']
      rw [this, rangeLegs_map _ (by rw [List.length_append]; omega), ← li, List.take_left]
    have m2 : (shiftLegs d.length d.length).map (listAsg (i ++ j)) = j := by
      have := shiftLegs_map i j
      rwa [li, lj] at this
    simp [prodAt, Factor.at, m1, m2, e3]

end TVal

/-! ## Evolutions of density matrices -/

theorem reach_bits {l : List Int} {w x : Int → Nat} (h : Reach bits l w x) (hw : ∀ q, w q < 2) (q : Int) : x q < 2 := by
  by_cases hq : q ∈ l
  · exact Finset.mem_range.1 (h.2 q hq)
  · rw [h.1 q hq]; exact hw q

theorem bits_four {o i : List Int} {w x w' x' : Int → Nat} (hw : ∀ q, w q < 2) (hx : ∀ q, x q < 2) (hw' : ∀ q, w' q < 2)
    (hx' : ∀ q, x' q < 2) : Bits (o.map w ++ i.map x ++ o.map w' ++ i.map x') (2 * (o.length + i.length)) := by
  refine ⟨by simp; omega, fun b hb => ?_⟩
  simp only [List.mem_append, List.mem_map] at hb
  rcases hb with ((⟨q, -, rfl⟩ | ⟨q, -, rfl⟩) | ⟨q, -, rfl⟩) | ⟨q, -, rfl⟩
  exacts [hw q, hx q, hw' q, hx' q]

theorem bits_two {o i : List Int} {w x : Int → Nat} (hw : ∀ q, w q < 2) (hx : ∀ q, x q < 2) :
    Bits (o.map w ++ i.map x) (o.length + i.length) := by
  refine ⟨by simp, fun b hb => ?_⟩
  simp only [List.mem_append, List.mem_map] at hb
  rcases hb with ⟨q, -, rfl⟩ | ⟨q, -, rfl⟩
  exacts [hw q, hx q]

/-- The two operations on density matrices have the same entries. -/
def Act.SameDens (p p' : Act R) : Prop :=
  p.ins = p'.ins ∧ p.outs = p'.outs ∧ ∀ x, Bits x (2 * (p.outs.length + p.ins.length)) → p.ten x = p'.ten x

theorem evolveDens_same {l l' : List (Act R)} (h : List.Forall₂ Act.SameDens l l')
    {ρ ρ' : (Int → Nat) → (Int → Nat) → R} (hρ : ∀ w w', (∀ q, w q < 2) → (∀ q, w' q < 2) → ρ w w' = ρ' w w')
    {u u' : Int → Nat} (hu : ∀ q, u q < 2) (hu' : ∀ q, u' q < 2) : evolveDens l ρ u u' = evolveDens l' ρ' u u' := by
  induction h generalizing ρ ρ' with
  | nil => exact hρ u u' hu hu'
  | @cons p p' l l' h _ ih =>
    refine ih fun w w' hw hw' => ?_
    obtain ⟨h1, h2, h3⟩ := h
    unfold Act.applyDens
    rw [← h1, ← h2]
    refine sumOver_congr_reach fun x hx => sumOver_congr_reach fun x' hx' => ?_
    have hxb := reach_bits hx hw
    have hxb' := reach_bits hx' hw'
    rw [h3 _ (bits_four hw hxb hw' hxb'), hρ x x' hxb hxb']

/-- The first operation acts on density matrices as the second one acts on states and their conjugates. -/
def Act.Paired (P p : Act R) : Prop :=
  P.ins = p.ins ∧ P.outs = p.outs ∧ ∀ x y, Bits x (p.outs.length + p.ins.length) → Bits y (p.outs.length + p.ins.length) →
    P.ten (x ++ y) = p.ten x * star (p.ten y)

/-- The evolution of `ψ φ†` is that of `ψ` times the conjugate of that of `φ`. -/
theorem evolveDens_paired {L l : List (Act R)} (h : List.Forall₂ Act.Paired L l)
    {ρ : (Int → Nat) → (Int → Nat) → R} {ψ φ : (Int → Nat) → R}
    (hρ : ∀ w w', (∀ q, w q < 2) → (∀ q, w' q < 2) → ρ w w' = ψ w * star (φ w'))
    {u u' : Int → Nat} (hu : ∀ q, u q < 2) (hu' : ∀ q, u' q < 2) :
    evolveDens L ρ u u' = evolve l ψ u * star (evolve l φ u') := by
  induction h generalizing ρ ψ φ with
  | nil => exact hρ u u' hu hu'
  | @cons P p L l h _ ih =>
    refine ih fun w w' hw hw' => ?_
    obtain ⟨h1, h2, h3⟩ := h
    unfold Act.applyDens Act.apply
    rw [h1, h2]
    have step : ∀ x, (∀ q, x q < 2) → sumOver bits p.ins (fun x' =>
        P.ten (p.outs.map w ++ p.ins.map x ++ p.outs.map w' ++ p.ins.map x') * ρ x x') w' =
        (p.ten (p.outs.map w ++ p.ins.map x) * ψ x) *
          star (sumOver bits p.ins (fun x' => p.ten (p.outs.map w' ++ p.ins.map x') * φ x') w') := fun x hx => by
      rw [star_sumOver, ← sumOver_const_mul]
      refine sumOver_congr_reach fun x' hx' => ?_
      have hxb' := reach_bits hx' hw'
      rw [List.append_assoc, h3 _ _ (bits_two hw hx) (bits_two hw' hxb'), hρ x x' hx hxb', star_mul']
      ring
    rw [sumOver_congr_reach fun x hx => step x (reach_bits hx hw)]
    rw [sumOver_mul_right_indep (g := fun _ => star (sumOver bits p.ins (fun x' => p.ten (p.outs.map w' ++ p.ins.map x') * φ x') w'))
      fun _ _ _ => rfl]

theorem basisDens_eq (qs : List Int) (v v' w w' : Int → Nat) :
    (basisDens qs v v' w w' : R) = basisState qs v w * star (basisState qs v' w') := by
  unfold basisDens basisState
  by_cases h : ∀ q ∈ qs, w q = v q
  · by_cases h' : ∀ q ∈ qs, w' q = v' q
    · rw [if_pos ⟨h, h'⟩, if_pos h, if_pos h', star_one, mul_one]
    · rw [if_neg fun a => h' a.2, if_neg h', star_zero, mul_zero]
  · rw [if_neg fun a => h a.1, if_neg h, zero_mul]

theorem pairMat_append {T : List Nat → R} {m : Nat} {x y : List Nat} (hx : x.length = m) (hy : y.length = m) :
    pairMat T ((x ++ y).length / 2) (x ++ y) = T x * star (T y) := by
  have : (x ++ y).length / 2 = x.length := by rw [List.length_append, hx, hy]; omega
  unfold pairMat
  rw [this, List.take_left, List.drop_left]

/-! ## C37, C47 operations of all classes -/

/-- The operation has the shape `s` and the density representation `d`, with the entries `D`. -/
structure DMeans {α : Type} (I : DensIface α (TVal R)) (D : List Nat → R) (op : α) (s : List (List Letter)) (d : TVal R) : Prop where
  shape : I.shape op = .ok s
  dens : I.dens op = .ok d
  dims : d.shape = some (List.replicate (2 * ((outPlaces s).length + (inPlaces s).length)) (some 2))
  entries : ∀ idx, Bits idx (2 * ((outPlaces s).length + (inPlaces s).length)) → d.tot idx = D idx

/-- The entries of the density representation. -/
def densD {α : Type} (I : DensIface α (TVal R)) (op : α) : List Nat → R :=
  match I.dens op with
  | .ok t => t.tot
  | .error _ => fun _ => 0

namespace Circ

variable {α : Type} {I : DensIface α (TVal R)} {D : α → List Nat → R} {c : Circ α}

theorem densOk_of {D : List Nat → R} {op : α} {s : List (List Letter)} {d : TVal R} (h : DMeans I D op s d)
    {qs : List Int} (hl : s.length = qs.length) (hn : qs.Nodup) (tm : Int) : DensOk I TVal.tot (densD I) ⟨op, tm, qs⟩ := by
  refine ⟨s, h.shape, hl, hn, d, h.dens, ?_, by unfold densD; rw [h.dens]⟩
  dsimp only
  rw [outQubits_length hl hn, inQubits_length hl hn]
  exact h.dims

/-- A valid circuit of operations with density representations has one, that of their composition. -/
theorem dmeans_circ (hn : c.keys.Nodup) {s : List (List Letter)} (hs : c.shape I.shape = .ok s)
    (hm : ∀ p ∈ c, ∃ s d, DMeans I (D p.2.op) p.2.op s d ∧ s.length = p.2.qubits.length ∧ p.2.qubits.Nodup) :
    ∃ tn, c.convertDensity I = .ok tn ∧
      (TVal.ofTN tn).shape = some (List.replicate (2 * ((outPlaces s).length + (inPlaces s).length)) (some 2)) ∧
      (∀ u v u' v' : Int → Nat, (∀ q, u q < 2) → (∀ q, v q < 2) → (∀ q, u' q < 2) → (∀ q, v' q < 2) →
        (TVal.ofTN tn).tot ((circOuts I.shape c).map u ++ (circIns I.shape c).map v ++
          (circOuts I.shape c).map u' ++ (circIns I.shape c).map v') =
        evolveDens ((timeSorted c).map fun p => actOf I.shape D p.2) (basisDens (circIns I.shape c) v v') u u') ∧
      ∀ idx, Bits idx (2 * ((outPlaces s).length + (inPlaces s).length)) →
        (TVal.ofTN tn).tot idx = circDens I.shape D c idx := by
  have hfit : Fitting I.shape c := fun p hp => by
    obtain ⟨s, t, h1, h2, h3⟩ := hm p hp
    exact ⟨s, h1.shape, h2, h3⟩
  obtain ⟨tn, outQ, inQ, a1, a2, a3, a4, a5, a6, a7⟩ := c47_circuit (I := I) (val := TVal.tot) (D := densD I) hn
    (by unfold isValid; rw [hs]) fun p hp => by
      obtain ⟨s, t, h1, h2, h3⟩ := hm p hp
      exact densOk_of h1 h2 h3 _
  have hval := (c35_shape_iff hfit).1 ⟨s, hs⟩
  obtain ⟨-, hword⟩ := wired_of_valid hval (timeSorted_perm c) (timeSorted_sorted c)
  obtain rfl : outQ = circOuts I.shape c := sorted_unique a2 (circOuts_sorted _ _) fun q => by
    obtain ⟨l, hl, -⟩ := hval q
    rw [mem_circOuts, (a4 q l hl).1, hword q l hl]
  obtain rfl : inQ = circIns I.shape c := sorted_unique a3 (circIns_sorted _ _) fun q => by
    obtain ⟨l, hl, -⟩ := hval q
    rw [mem_circIns, (a4 q l hl).2, hword q l hl]
  rw [outs_length hfit hs, ins_length hfit hs]
  have key : ∀ u v u' v' : Int → Nat, (∀ q, u q < 2) → (∀ q, v q < 2) → (∀ q, u' q < 2) → (∀ q, v' q < 2) →
        (TVal.ofTN tn).tot ((circOuts I.shape c).map u ++ (circIns I.shape c).map v ++
          (circOuts I.shape c).map u' ++ (circIns I.shape c).map v') =
        evolveDens ((timeSorted c).map fun p => actOf I.shape D p.2) (basisDens (circIns I.shape c) v v') u u' := by
    intro u v u' v' hu hv hu' hv'
    rw [TVal.tot_ofTN, ← a6, a7 _ (timeSorted_perm c) (timeSorted_sorted c) u v u' v' (fun q _ => hu q) (fun q _ => hv q)
      (fun q _ => hu' q) (fun q _ => hv' q)]
    refine evolveDens_same ?_ (fun _ _ _ _ => rfl) hu hu'
    rw [List.forall₂_map_left_iff, List.forall₂_map_right_iff, List.forall₂_same]
    intro p hp
    obtain ⟨s, t, h1, h2, h3⟩ := hm p ((timeSorted_perm c).mem_iff.1 hp)
    have hsd : shapeD I.shape p.2.op = s := by simp [shapeD, h1.shape]
    refine ⟨rfl, rfl, fun x hx => ?_⟩
    simp only [actOf, hsd] at hx ⊢
    rw [outQubits_length h2 h3, inQubits_length h2 h3] at hx
    rw [← h1.entries x hx]
    unfold densD; rw [h1.dens]
  refine ⟨tn, a1, (NetTensor.shape_ofNet tn).trans a5, key, fun idx hi => ?_⟩
  have ndo : (circOuts I.shape c).Nodup := (circOuts_sorted _ _).imp fun h => ne_of_lt h
  have ndi : (circIns I.shape c).Nodup := (circIns_sorted _ _).imp fun h => ne_of_lt h
  have hdrop : ∀ k, ∀ b ∈ idx.drop k, b < 2 := fun k b hb => hi.2 b (List.mem_of_mem_drop hb)
  have hl := hi.1
  set o := (circOuts I.shape c).length with ho
  set i := (circIns I.shape c).length with hii
  have ez : idx = (circOuts I.shape c).map (readAt (circOuts I.shape c) idx) ++
      (circIns I.shape c).map (readAt (circIns I.shape c) (idx.drop o)) ++
      (circOuts I.shape c).map (readAt (circOuts I.shape c) (idx.drop (o + i))) ++
      (circIns I.shape c).map (readAt (circIns I.shape c) (idx.drop (o + i + o))) := by
    rw [map_readAt ndo (by rw [hl]; omega), map_readAt ndi (by rw [List.length_drop, hl]; omega),
      map_readAt ndo (by rw [List.length_drop, hl]; omega), map_readAt ndi (by rw [List.length_drop, hl]; omega), ← ho, ← hii,
      List.take_of_length_le (l := idx.drop (o + i + o)) (by rw [List.length_drop, hl]; omega), List.append_assoc, ← List.drop_drop (i := o) (j := o + i), List.take_append_drop,
      List.append_assoc, ← List.drop_drop (i := i) (j := o), List.take_append_drop, List.take_append_drop]
  conv_lhs => rw [ez]
  rw [key _ _ _ _ (readAt_bits hi.2) (readAt_bits (hdrop _)) (readAt_bits (hdrop _)) (readAt_bits (hdrop _))]
  rfl

end Circ

namespace Oper

/-- Operations with a density representation, as the constructors make them: density data of the right size
(`ImmutableOperation`); gates and controlled gates whose data, if it is a network, can be flattened to depth `k`;
controlled circuits; valid circuits of such operations. -/
def DensBuilt (ctr : TVal R → Except Err (Arr R)) (k : Nat) : Nat → Oper R → Prop
  | 0, _ => False
  | _ + 1, .imm data s => data.shape = some (List.replicate (2 * ((outPlaces s).length + (inPlaces s).length)) (some 2))
  | n + 1, .pure p q => Built ctr (n + 1) false (.pure p q) ∧ TVal.Flat k p.data
  | n + 1, .ctrl data s sa ov => Built ctr (n + 1) false (.ctrl data s sa ov) ∧ TVal.Flat k data
  | n + 1, .cctrl c s cond => Built ctr (n + 1) false (.cctrl c s cond)
  | n + 1, .circ c => (Dict.keys c).Nodup ∧ (∃ s, Circ.shape (iface ctr n).shape c = .ok s) ∧
      ∀ p ∈ c, DensBuilt ctr k n p.2.op ∧ p.2.qubits.Nodup ∧ ∃ s, (iface ctr n).shape p.2.op = .ok s ∧ s.length = p.2.qubits.length
  | _ + 1, .sup _ _ => False

/-- The same with the condition on pure tensors, which `densFlat_of` shows to hold. -/
def DensFlat (ctr : TVal R → Except Err (Arr R)) (k : Nat) : Nat → Oper R → Prop
  | 0, _ => False
  | _ + 1, .imm data s => data.shape = some (List.replicate (2 * ((outPlaces s).length + (inPlaces s).length)) (some 2))
  | n + 1, .pure p q => Built ctr (n + 1) false (.pure p q) ∧
      ∀ tn, (iface ctr (n + 1)).tensor (.pure p q) = .ok (.ofTN tn) → TVal.Expandable k tn
  | n + 1, .ctrl data s sa ov => Built ctr (n + 1) false (.ctrl data s sa ov) ∧
      ∀ tn, (iface ctr (n + 1)).tensor (.ctrl data s sa ov) = .ok (.ofTN tn) → TVal.Expandable k tn
  | n + 1, .cctrl c s cond => Built ctr (n + 1) false (.cctrl c s cond) ∧
      ∀ tn, (iface ctr (n + 1)).tensor (.cctrl c s cond) = .ok (.ofTN tn) → TVal.Expandable k tn
  | n + 1, .circ c => (Dict.keys c).Nodup ∧ (∃ s, Circ.shape (iface ctr n).shape c = .ok s) ∧
      ∀ p ∈ c, DensFlat ctr k n p.2.op ∧ p.2.qubits.Nodup ∧ ∃ s, (iface ctr n).shape p.2.op = .ok s ∧ s.length = p.2.qubits.length
  | _ + 1, .sup _ _ => False

/-- What the conversion of a circuit to a density network looks at. -/
def diface (ctr : TVal R → Except Err (Arr R)) (G : TN.Glue) (k n : Nat) : DensIface (Oper R) (TVal R) :=
  ⟨(iface ctr n).shape, density ctr G k n⟩

/-- The entries of an operation on density matrices. -/
def densMatrix (ctr : TVal R → Except Err (Arr R)) (n : Nat) (op : Oper R) : List Nat → R :=
  densMat (fun k => (iface ctr k).shape) n op

variable {ctr : TVal R → Except Err (Arr R)} {G : TN.Glue} {k : Nat}

theorem densFlat_of (hctr : Evaluates ctr) {K : Nat} : ∀ (n : Nat) {op : Oper R}, DensBuilt ctr k n op → n + k ≤ K → DensFlat ctr K n op
  | 0, _, h, _ => absurd h (by simp [DensBuilt])
  | _ + 1, .imm _ _, h, _ => by rw [DensBuilt] at h; rw [DensFlat]; exact h
  | n + 1, .pure p q, h, hK => by
    rw [DensBuilt] at h; rw [DensFlat]
    exact ⟨h.1, fun tn ht => ((flat_tensor hctr (n + 1) h.1 (by rw [Tidy]; exact h.2) ht).mono hK).2 tn rfl⟩
  | n + 1, .ctrl data s sa ov, h, hK => by
    rw [DensBuilt] at h; rw [DensFlat]
    exact ⟨h.1, fun tn ht => ((flat_tensor hctr (n + 1) h.1 (by rw [Tidy]; exact h.2) ht).mono hK).2 tn rfl⟩
  | n + 1, .cctrl c s cond, h, hK => by
    rw [DensBuilt] at h; rw [DensFlat]
    exact ⟨h, fun tn ht => ((flat_cctrl hctr h ht).mono (by omega)).2 tn rfl⟩
  | n + 1, .circ c, h, hK => by
    rw [DensBuilt] at h; rw [DensFlat]
    exact ⟨h.1, h.2.1, fun p hp => ⟨densFlat_of hctr n (h.2.2 p hp).1 (by omega), (h.2.2 p hp).2⟩⟩
  | n + 1, .sup _ _, h, _ => absurd h (by simp [DensBuilt])

theorem bits_halves {idx : List Nat} {m : Nat} (h : Bits idx (2 * m)) :
    idx.length / 2 = m ∧ Bits (idx.take m) m ∧ Bits (idx.drop m) m :=
  ⟨by rw [h.1]; omega, ⟨by rw [List.length_take, h.1]; omega, fun b hb => h.2 b (List.mem_of_mem_take hb)⟩,
    by rw [List.length_drop, h.1]; omega, fun b hb => h.2 b (List.mem_of_mem_drop hb)⟩

/-- The density representation of gates. -/
theorem dmeans_gate (hG : G.Sound) {n : Nat} {op : Oper R} {s : List (List Letter)} {t : TVal R} {M : List Nat → R}
    (hm : Means (iface ctr (n + 1)) M op s t)
    (hd : density ctr G k (n + 1) op = match (iface ctr (n + 1)).tensor op with
      | .error e => .error e
      | .ok tp => TVal.densityPure G k tp)
    (he : ∀ tn, (iface ctr (n + 1)).tensor op = .ok (.ofTN tn) → TVal.Expandable k tn) :
    ∃ d, DMeans (diface ctr G k (n + 1)) (fun idx => pairMat M (idx.length / 2) idx) op s d := by
  obtain ⟨D, h1, h2, h3⟩ := TVal.c37_pure hG (k := k) hm.whole (hm.dims.trans (by rw [replicate_some])) fun tn e => he tn (e ▸ hm.tensor)
  refine ⟨D, hm.shape, ?_, ?_, fun idx hi => ?_⟩
  · show density ctr G k (n + 1) op = _
    rw [hd, hm.tensor]; exact h1
  · rw [h2, ← List.replicate_add, ← replicate_some]
    congr 2; omega
  · obtain ⟨e1, e2, e3⟩ := bits_halves hi
    have := h3 _ _ e2.inRange e3.inRange
    rw [List.take_append_drop] at this
    rw [this]
    unfold pairMat
    rw [e1, hm.entries _ e2, hm.entries _ e3]

theorem dmeans_built (hctr : Evaluates ctr) (hG : G.Sound) : ∀ (n : Nat) (op : Oper R), DensFlat ctr k n op →
    ∃ s d, DMeans (diface ctr G k n) (densMatrix ctr n op) op s d
  | 0, op, h => by cases op <;> exact absurd h (by simp [DensFlat])
  | n + 1, .imm data s, h => by
    rw [DensFlat] at h
    exact ⟨s, data, rfl, rfl, h, fun _ _ => rfl⟩
  | n + 1, .pure p q, h => by
    rw [DensFlat] at h
    obtain ⟨s, t, hm, -⟩ := means_built hctr _ _ _ h.1
    exact ⟨s, dmeans_gate hG hm rfl h.2⟩
  | n + 1, .ctrl data s sa ov, h => by
    rw [DensFlat] at h
    obtain ⟨s, t, hm, -⟩ := means_built hctr _ _ _ h.1
    exact ⟨s, dmeans_gate hG hm rfl h.2⟩
  | n + 1, .cctrl c s cond, h => by
    rw [DensFlat] at h
    obtain ⟨s, t, hm, -⟩ := means_built hctr _ _ _ h.1
    exact ⟨s, dmeans_gate hG hm rfl h.2⟩
  | n + 1, .circ c, h => by
    rw [DensFlat] at h
    obtain ⟨h1, ⟨s, h2⟩, h3⟩ := h
    obtain ⟨tn, k1, k2, -, k3⟩ := Circ.dmeans_circ (c := c) (I := diface ctr G k n) (D := densMatrix ctr n) h1 h2 fun p hp => by
      obtain ⟨j1, j2, s, j3, j4⟩ := h3 p hp
      obtain ⟨s', d, j5⟩ := dmeans_built hctr hG n p.2.op j1
      have := j5.shape
      rw [show (diface ctr G k n).shape p.2.op = .ok s from j3] at this
      cases this
      exact ⟨s, d, j5, j4, j2⟩
    refine ⟨s, .ofTN tn, h2, ?_, k2, k3⟩
    show (Circ.convertDensity (diface ctr G k n) c).map _ = _
    rw [k1]; rfl
  | n + 1, .sup _ _, h => by simp [DensFlat] at h

/-- **C37, C47.**  `tensor_density` of an operation has the entries of the operation on density matrices: the data of an
`ImmutableOperation`, the matrix and its conjugate of a gate, a controlled gate or a controlled circuit, and the
composition in the order of time of the operations of a circuit, nested to any depth. -/
theorem c47_operation (hctr : Evaluates ctr) (hG : G.Sound) {n K : Nat} {op : Oper R} (h : DensBuilt ctr k n op) (hK : n + k ≤ K) :
    ∃ s d, (iface ctr n).shape op = .ok s ∧ density ctr G K n op = .ok d ∧
      d.shape = some (List.replicate (2 * ((outPlaces s).length + (inPlaces s).length)) (some 2)) ∧
      ∀ idx, Bits idx (2 * ((outPlaces s).length + (inPlaces s).length)) → d.tot idx = densMatrix ctr n op idx := by
  obtain ⟨s, d, hd⟩ := dmeans_built hctr hG n op (densFlat_of hctr n h hK)
  exact ⟨s, d, hd.shape, hd.dens, hd.dims, hd.entries⟩

/-! ## C48 the density representation of a circuit without noise -/

theorem paired_built (hctr : Evaluates ctr) (hG : G.Sound) : ∀ (n : Nat) (b : Bool) (op : Oper R), DensFlat ctr k n op →
    Built ctr n b op → ∃ s t d, Means (iface ctr n) (matrix ctr n op) op s t ∧ DMeans (diface ctr G k n) (densMatrix ctr n op) op s d ∧
      ∀ x y, Bits x ((outPlaces s).length + (inPlaces s).length) → Bits y ((outPlaces s).length + (inPlaces s).length) →
        densMatrix ctr n op (x ++ y) = matrix ctr n op x * star (matrix ctr n op y)
  | 0, _, op, h, _ => by cases op <;> exact absurd h (by simp [DensFlat])
  | n + 1, _, .imm data s, _, h => absurd h (by simp [Built])
  | n + 1, b, .pure p q, h, h' => by
    obtain ⟨s, t, hm, -⟩ := means_built hctr _ _ _ h'
    rw [DensFlat] at h
    obtain ⟨d, hd⟩ := dmeans_gate hG hm rfl h.2
    exact ⟨s, t, d, hm, hd, fun x y hx hy => pairMat_append hx.1 hy.1⟩
  | n + 1, b, .ctrl data s sa ov, h, h' => by
    obtain ⟨s, t, hm, -⟩ := means_built hctr _ _ _ h'
    rw [DensFlat] at h
    obtain ⟨d, hd⟩ := dmeans_gate hG hm rfl h.2
    exact ⟨s, t, d, hm, hd, fun x y hx hy => pairMat_append hx.1 hy.1⟩
  | n + 1, b, .cctrl c s cond, h, h' => by
    obtain ⟨s, t, hm, -⟩ := means_built hctr _ _ _ h'
    rw [DensFlat] at h
    obtain ⟨d, hd⟩ := dmeans_gate hG hm rfl h.2
    exact ⟨s, t, d, hm, hd, fun x y hx hy => pairMat_append hx.1 hy.1⟩
  | n + 1, b, .circ c, h, h' => by
    obtain ⟨s, t, hm, -⟩ := means_built hctr _ _ _ h'
    obtain ⟨s', d, hd⟩ := dmeans_built hctr hG _ _ h
    have : s' = s := by
      have := hm.shape
      rw [show (iface ctr (n + 1)).shape (.circ c) = .ok s' from hd.shape] at this
      cases this; rfl
    subst this
    refine ⟨s', t, d, hm, hd, fun x y hx hy => ?_⟩
    rw [DensFlat] at h
    rw [Built] at h'
    obtain ⟨h1, ⟨s, h2⟩, h3⟩ := h
    obtain ⟨-, -, h3', -⟩ := h'
    have hpair : ∀ p ∈ c, ∃ s t d, Means (iface ctr n) (matrix ctr n p.2.op) p.2.op s t ∧
        DMeans (diface ctr G k n) (densMatrix ctr n p.2.op) p.2.op s d ∧ s.length = p.2.qubits.length ∧ p.2.qubits.Nodup ∧
        ∀ x y, Bits x ((outPlaces s).length + (inPlaces s).length) → Bits y ((outPlaces s).length + (inPlaces s).length) →
          densMatrix ctr n p.2.op (x ++ y) = matrix ctr n p.2.op x * star (matrix ctr n p.2.op y) := fun p hp => by
      obtain ⟨j1, j2, s, j3, j4⟩ := h3 p hp
      obtain ⟨s', t, d, k1, k2, k3⟩ := paired_built hctr hG n b p.2.op j1 (h3' p hp).1
      have := k1.shape
      rw [j3] at this
      cases this
      exact ⟨s, t, d, k1, k2, j4, j2, k3⟩
    obtain ⟨tn, k1, -, k2, -⟩ := Circ.dmeans_circ (c := c) (I := diface ctr G k n) (D := densMatrix ctr n) h1 h2 fun p hp => by
      obtain ⟨s, t, d, -, j1, j2, j3, -⟩ := hpair p hp
      exact ⟨s, d, j1, j2, j3⟩
    have hdt : d = .ofTN tn := by
      have := hd.dens
      have e : (diface ctr G k (n + 1)).dens (.circ c) = .ok (.ofTN tn) := by
        show (Circ.convertDensity (diface ctr G k n) c).map _ = _
        rw [k1]; rfl
      rw [e] at this
      cases this; rfl
    have hfit : Fitting (iface ctr n).shape c := fun p hp => by
      obtain ⟨s, t, d, j1, -, j2, j3, -⟩ := hpair p hp
      exact ⟨s, j1.shape, j2, j3⟩
    have hs' : Circ.shape (iface ctr n).shape c = .ok s' := hm.shape
    rw [Circ.outs_length hfit hs', Circ.ins_length hfit hs'] at hx hy
    have hxy : Bits (x ++ y) (2 * ((outPlaces s').length + (inPlaces s').length)) := by
      rw [Circ.outs_length hfit hs', Circ.ins_length hfit hs', Nat.two_mul]
      exact hx.append hy
    have split : ∀ {x : List Nat}, Bits x ((circOuts (iface ctr n).shape c).length + (circIns (iface ctr n).shape c).length) →
        x = (circOuts (iface ctr n).shape c).map (readAt (circOuts (iface ctr n).shape c) x) ++
          (circIns (iface ctr n).shape c).map (readAt (circIns (iface ctr n).shape c) (x.drop (circOuts (iface ctr n).shape c).length)) :=
      fun {x} hx => by
        have ndo : (circOuts (iface ctr n).shape c).Nodup := (Circ.circOuts_sorted _ _).imp fun h => ne_of_lt h
        have ndi : (circIns (iface ctr n).shape c).Nodup := (Circ.circIns_sorted _ _).imp fun h => ne_of_lt h
        have hl := hx.1
        rw [map_readAt ndo (by omega), map_readAt ndi (by rw [List.length_drop]; omega),
          List.take_of_length_le (l := x.drop _) (by rw [List.length_drop]; omega), List.take_append_drop]
    have hdrop : ∀ {x : List Nat} {m : Nat}, Bits x m → ∀ j, ∀ b ∈ x.drop j, b < 2 := fun hx j b hb => hx.2 b (List.mem_of_mem_drop hb)
    rw [← hd.entries _ hxy, hdt]
    conv_lhs => rw [split hx, split hy, ← List.append_assoc]
    refine (k2 _ _ _ _ (readAt_bits hx.2) (readAt_bits (hdrop hx _)) (readAt_bits hy.2) (readAt_bits (hdrop hy _))).trans ?_
    refine (evolveDens_paired (l := (timeSorted c).map fun p => actOf (iface ctr n).shape (matrix ctr n) p.2) ?_
      (fun w w' _ _ => basisDens_eq _ _ _ w w') (readAt_bits hx.2) (readAt_bits hy.2)).trans rfl
    rw [List.forall₂_map_left_iff, List.forall₂_map_right_iff, List.forall₂_same]
    intro p hp
    obtain ⟨s, t, d, j1, -, j2, j3, j4⟩ := hpair p ((Circ.timeSorted_perm c).mem_iff.1 hp)
    have hsd : shapeD (iface ctr n).shape p.2.op = s := by simp [shapeD, j1.shape]
    refine ⟨rfl, rfl, fun x y hx hy => ?_⟩
    simp only [actOf, hsd] at hx hy ⊢
    rw [outQubits_length j2 j3, inQubits_length j2 j3] at hx hy
    exact j4 x y hx hy
  | n + 1, _, .sup _ _, h, _ => by simp [DensFlat] at h

/-- **C48.**  For an operation without noise — gates, controlled gates and circuits, and circuits of these, nested to any
depth — `tensor_density` and `tensor_pure` agree: the entry of the first at `x ++ y` is the entry of the second at `x`
times the conjugate of the entry at `y`. -/
theorem c48_pure (hctr : Evaluates ctr) (hG : G.Sound) {n K : Nat} {b : Bool} {op : Oper R} (h : DensBuilt ctr k n op)
    (hK : n + k ≤ K) (h' : Built ctr n b op) :
    ∃ s t d, (iface ctr n).shape op = .ok s ∧ (iface ctr n).tensor op = .ok t ∧ density ctr G K n op = .ok d ∧
      t.shape = some (List.replicate ((outPlaces s).length + (inPlaces s).length) (some 2)) ∧
      d.shape = some (List.replicate (2 * ((outPlaces s).length + (inPlaces s).length)) (some 2)) ∧
      ∀ x y, Bits x ((outPlaces s).length + (inPlaces s).length) → Bits y ((outPlaces s).length + (inPlaces s).length) →
        d.tot (x ++ y) = t.tot x * star (t.tot y) := by
  obtain ⟨s, t, d, h1, h2, h3⟩ := paired_built hctr hG n b op (densFlat_of hctr n h hK) h'
  refine ⟨s, t, d, h1.shape, h1.tensor, h2.dens, h1.dims, h2.dims, fun x y hx hy => ?_⟩
  rw [h2.entries _ (by rw [Nat.two_mul]; exact hx.append hy), h3 x y hx hy, h1.entries x hx, h1.entries y hy]

/-- A `SuperPosition` has no density representation, though it is a pure operation: `tensor_density` raises a
`ValueError` (converter.py:149-154, circuit.py:1104). -/
theorem c47_superposition_violated (ctr : TVal R → Except Err (Arr R)) (G : TN.Glue) (k n : Nat) (terms : List (R × Oper R))
    (s : List (List Letter)) : (iface ctr (n + 1)).pure (.sup terms s) = .ok true ∧ density ctr G k (n + 1) (.sup terms s) = .error .value :=
  ⟨rfl, rfl⟩

/-! ### Examples: a noisy circuit, and a circuit without noise -/

/-- A map of density matrices that is not a product `T ⊗ star T`. -/
def exNoise : TVal GaussianInt :=
  arrVal [2, 2, 2, 2] fun l => match l with
    | [o, i, o', i'] => if o = i ∧ o' = i' then (if o = o' then 3 else ⟨1, 2⟩) else if o = i' ∧ o' = i then 1 else 0
    | _ => 0

/-- A circuit with a gate, a controlled circuit, noise and a circuit inside. -/
def exNoisy : Oper GaussianInt :=
  .circ [(.str "g", ⟨.pure exG none, 0, [1]⟩), (.str "h", ⟨.cctrl exCirc [[.c], [.i, .o], [.i, .o]] false, 1, [0, 1, 2]⟩),
    (.str "n", ⟨.imm exNoise [[.i, .o]], 2, [1]⟩), (.str "k", ⟨.circ exCirc, 3, [1, 2]⟩)]

theorem exCirc_dens (n : Nat) : DensBuilt evalAll 0 (n + 2) (.circ exCirc) := by
  rw [DensBuilt]
  refine ⟨by decide, ⟨_, rfl⟩, fun p hp => ⟨?_, (exCirc_ops false n p hp).2⟩⟩
  simp only [exCirc, List.mem_cons, List.not_mem_nil, or_false] at hp
  rcases hp with rfl | rfl
  · rw [DensBuilt, Built]
    exact ⟨⟨exG_ok, fun h => by cases h⟩, TVal.flat_ten _ _⟩
  · rw [DensBuilt, Built]
    exact ⟨⟨exC_ok, fun h => by cases h⟩, TVal.flat_ten _ _⟩

theorem exNoisy_dens : DensBuilt evalAll 0 3 exNoisy := by
  rw [exNoisy, DensBuilt]
  refine ⟨by decide, ⟨_, rfl⟩, fun p hp => ?_⟩
  simp only [List.mem_cons, List.not_mem_nil, or_false] at hp
  rcases hp with rfl | rfl | rfl | rfl
  · refine ⟨?_, by decide, _, rfl, rfl⟩
    rw [DensBuilt, Built]
    exact ⟨⟨exG_ok, fun h => by cases h⟩, TVal.flat_ten _ _⟩
  · refine ⟨?_, by decide, _, rfl, rfl⟩
    rw [DensBuilt, Built]
    exact ⟨rfl, ⟨_, rfl, rfl⟩, exCirc_ops true 0, by decide, follows_pair (by decide)⟩
  · refine ⟨?_, by decide, _, rfl, rfl⟩
    rw [DensBuilt]
    rfl
  · refine ⟨exCirc_dens 0, by decide, _, rfl, rfl⟩

/-- The hypotheses of `c47_operation` (and so those of `Circ.c47_circuit`, used for it) are met by a circuit with noise. -/
example : ∃ s d, (iface (R := GaussianInt) evalAll 3).shape exNoisy = .ok s ∧ density evalAll stdGlue 3 3 exNoisy = .ok d := by
  obtain ⟨s, d, h1, h2, -⟩ := c47_operation evalAll_evaluates stdGlue_sound exNoisy_dens (le_refl 3)
  exact ⟨s, d, h1, h2⟩

/-- The hypotheses of `c48_pure` are met by a circuit with a controlled gate. -/
example : ∃ t d, (iface (R := GaussianInt) evalAll 2).tensor (.circ exCirc) = .ok t ∧ density evalAll stdGlue 2 2 (.circ exCirc) = .ok d ∧
    d.tot [0, 1, 0, 1, 0, 1, 1, 0] = t.tot [0, 1, 0, 1] * star (t.tot [0, 1, 1, 0]) := by
  obtain ⟨s, t, d, h1, h2, h3, -, -, h4⟩ := c48_pure evalAll_evaluates stdGlue_sound (exCirc_dens 0) (le_refl 2) exCirc_built
  refine ⟨t, d, h2, h3, h4 [0, 1, 0, 1] [0, 1, 1, 0] ?_ ?_⟩
  all_goals
    have : (iface (R := GaussianInt) evalAll 2).shape (.circ exCirc) = .ok [[.i, .o], [.i, .o]] := by decide
    rw [h1] at this
    cases this
    exact ⟨rfl, by decide⟩

/-- The hypotheses of `TVal.c37_pure` are met by the network of a controlled gate. -/
example : ∃ t D, (iface (R := GaussianInt) evalAll 1).tensor (.ctrl exC [[.c], [.i, .o]] false none) = .ok t ∧
    TVal.densityPure stdGlue 1 t = .ok D ∧ D.tot [0, 1, 0, 1, 0, 1, 0, 1] = t.tot [0, 1, 0, 1] * star (t.tot [0, 1, 0, 1]) := by
  obtain ⟨t, ht⟩ := means_ctrl (ctr := evalAll) (n := 0) (sa' := false) (ov := none) exC_ok
  have hd := ht.dims
  rw [replicate_some] at hd
  obtain ⟨D, h1, -, h3⟩ := TVal.c37_pure stdGlue_sound (k := 1) ht.whole hd fun tn e =>
    (flat_ctrl (k := 0) ht.tensor (d := [2, 2, 2]) rfl ht.dims (TVal.flat_ten _ _)).2 tn e
  refine ⟨t, D, ht.tensor, h1, h3 [0, 1, 0, 1] [0, 1, 0, 1] ?_ ?_⟩
  all_goals
    show InRange [2, 2, 2, 2] [0, 1, 0, 1]
    simp [InRange]

end Oper

end Verif
