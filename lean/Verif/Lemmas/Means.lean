import Verif.Lemmas.CircMat
/-!
# Circuits of operations that mean matrices mean matrices
-/

set_option linter.unusedSectionVars false

namespace Verif

variable {R : Type} [CommSemiring R] [Star R] {α : Type}

/-- The operation has the shape `s`, is pure and is converted to the tensor `t`, with the entries `M`. -/
structure Means (I : OpsIface α (TVal R)) (M : List Nat → R) (op : α) (s : List (List Letter)) (t : TVal R) : Prop where
  shape : I.shape op = .ok s
  pure : I.pure op = .ok true
  tensor : I.tensor op = .ok t
  dims : t.shape = some (List.replicate ((outPlaces s).length + (inPlaces s).length) (some 2))
  whole : TVal.Whole t
  entries : ∀ idx, Bits idx ((outPlaces s).length + (inPlaces s).length) → t.tot idx = M idx
  basis : ∀ b k, I.basis op = some (b, k) → k < 2 ∧ s = (if b then [[.o]] else [[.i]]) ∧
    ∀ x < 2, M [x] = if x = k then 1 else 0

/-- The entries of the converted operation. -/
def totD (I : OpsIface α (TVal R)) (op : α) : List Nat → R :=
  match I.tensor op with
  | .ok t => t.tot
  | .error _ => fun _ => 0

namespace Circ

theorem isPure_of {τ : Type} {I : OpsIface α τ} {c : Circ α} {s : List (List Letter)} (hs : c.shape I.shape = .ok s)
    (h : ∀ p ∈ c, I.pure p.2.op = .ok true) : c.isPure I = .ok true := by
  have := mapM_ok (f := fun p : Nm × OpRec α => I.pure p.2.op) (g := fun _ => true) h
  unfold isPure isValid
  rw [hs]
  dsimp only
  rw [this]
  dsimp only
  congr 1
  simp

/-- The operations of a circuit mean the matrices `M` and fit their qubits. -/
def OpsMean (I : OpsIface α (TVal R)) (M : α → List Nat → R) (c : Circ α) : Prop :=
  ∀ p ∈ c, ∃ s t, Means I (M p.2.op) p.2.op s t ∧ s.length = p.2.qubits.length ∧ p.2.qubits.Nodup

variable {I : OpsIface α (TVal R)} {M : α → List Nat → R} {c : Circ α}

theorem OpsMean.fitting (h : OpsMean I M c) : Fitting I.shape c := fun p hp => by
  obtain ⟨s, t, h1, h2, h3⟩ := h p hp
  exact ⟨s, h1.shape, h2, h3⟩

theorem _root_.Verif.Means.totD_eq {M : List Nat → R} {op : α} {s : List (List Letter)} {t : TVal R} (h : Means I M op s t) :
    totD I op = t.tot := by
  unfold totD; rw [h.tensor]

theorem convertible_of {M : List Nat → R} {op : α} {s : List (List Letter)} {t : TVal R} (h : Means I M op s t)
    {qs : List Int} (hl : s.length = qs.length) (hn : qs.Nodup) (tm : Int) :
    Convertible I TVal.tot (totD I) ⟨op, tm, qs⟩ := by
  refine ⟨s, h.shape, hl, hn, ?_⟩
  dsimp only
  rw [outQubits_length hl hn, inQubits_length hl hn]
  unfold Drawable
  cases hb : I.basis op with
  | none => exact ⟨t, h.tensor, h.dims, h.totD_eq⟩
  | some bk =>
    obtain ⟨b, k⟩ := bk
    obtain ⟨h1, h2, h3⟩ := h.basis b k hb
    dsimp only
    have hlen : ((outPlaces s).length, (inPlaces s).length) = if b then (1, 0) else (0, 1) := by
      rw [h2]; cases b <;> decide
    refine ⟨h1, hlen, fun x hx => ?_⟩
    rw [h.totD_eq, h.entries [x] ⟨?_, by simpa using hx⟩]
    · exact h3 x hx
    · cases b <;> simp only [if_true, Bool.false_eq_true, if_false, Prod.mk.injEq] at hlen <;> rw [hlen.1, hlen.2] <;> rfl

/-- A valid circuit of operations that mean matrices means the product of the matrices. -/
theorem means_circ (hn : c.keys.Nodup) {s : List (List Letter)} (hs : c.shape I.shape = .ok s) (hm : OpsMean I M c) :
    c.isPure I = .ok true ∧ ∃ tn, c.convertPure I = .ok tn ∧
      (TVal.ofTN tn).shape = some (List.replicate ((outPlaces s).length + (inPlaces s).length) (some 2)) ∧
      TVal.Whole (.ofTN tn) ∧
      ∀ idx, Bits idx ((outPlaces s).length + (inPlaces s).length) → (TVal.ofTN tn).tot idx = circMat I.shape M c idx := by
  have hp : c.isPure I = .ok true := isPure_of hs fun p hp => by
    obtain ⟨s, t, h1, -⟩ := hm p hp
    exact h1.pure
  have hfit := hm.fitting
  refine ⟨hp, ?_⟩
  obtain ⟨tn, outQ, inQ, a1, a2, a3, a4, a5, a6, a7⟩ := c36_circuit (I := I) (val := TVal.tot) (ten := totD I) hn hp
    fun p hp => by
      obtain ⟨s, t, h1, h2, h3⟩ := hm p hp
      exact convertible_of h1 h2 h3 _
  have hval := (c35_shape_iff hfit).1 ⟨s, hs⟩
  obtain ⟨-, hword⟩ := wired_of_valid hval (timeSorted_perm c) (timeSorted_sorted c)
  obtain rfl : outQ = circOuts I.shape c := sorted_unique a2 (circOuts_sorted _ _) fun q => by
    obtain ⟨l, hl, -⟩ := hval q
    rw [mem_circOuts, (a4 q l hl).1, hword q l hl]
  obtain rfl : inQ = circIns I.shape c := sorted_unique a3 (circIns_sorted _ _) fun q => by
    obtain ⟨l, hl, -⟩ := hval q
    rw [mem_circIns, (a4 q l hl).2, hword q l hl]
  rw [outs_length hfit hs, ins_length hfit hs]
  refine ⟨tn, a1, ?_, ?_, fun idx hi => ?_⟩
  · exact (NetTensor.shape_ofNet tn).trans a5
  · refine TVal.whole_net (convertPure_tens (fun p hp t ht => ?_) a1)
    obtain ⟨s, t', h1, -⟩ := hm p hp
    rw [h1.tensor] at ht; cases ht
    exact h1.whole
  · obtain ⟨hb1, hb2⟩ := hi.split
    have ndo : (circOuts I.shape c).Nodup := (circOuts_sorted _ _).imp fun h => ne_of_lt h
    have ndi : (circIns I.shape c).Nodup := (circIns_sorted _ _).imp fun h => ne_of_lt h
    set u := readAt (circOuts I.shape c) idx with hu
    set v := readAt (circIns I.shape c) (idx.drop (circOuts I.shape c).length) with hv
    have ez : idx = (circOuts I.shape c).map u ++ (circIns I.shape c).map v := by
      rw [hu, hv, map_readAt ndo (by rw [hi.1]; omega), map_readAt ndi (by rw [hb2.1]),
        List.take_of_length_le (l := idx.drop _) (by rw [hb2.1]), List.take_append_drop]
    have hub : ∀ k, u k < 2 := readAt_bits hi.2
    have hvb : ∀ k, v k < 2 := readAt_bits hb2.2
    have e : circMat I.shape M c idx = evolve ((timeSorted c).map fun p => actOf I.shape M p.2) (basisState (circIns I.shape c) v) u := rfl
    rw [e, TVal.tot_ofTN, ← a6]
    conv_lhs => rw [ez]
    rw [a7 _ (timeSorted_perm c) (timeSorted_sorted c) u v (fun q _ => hub q) (fun q _ => hvb q)]
    refine evolve_same ?_ (fun _ _ => rfl) hub
    rw [List.forall₂_map_left_iff, List.forall₂_map_right_iff, List.forall₂_same]
    intro p hp
    obtain ⟨s, t, h1, h2, h3⟩ := hm p ((timeSorted_perm c).mem_iff.1 hp)
    have hsd : shapeD I.shape p.2.op = s := by simp [shapeD, h1.shape]
    refine ⟨rfl, rfl, fun x hx => ?_⟩
    simp only [actOf, hsd] at hx ⊢
    rw [outQubits_length h2 h3, inQubits_length h2 h3] at hx
    rw [h1.totD_eq, h1.entries x hx]

section Adjoint

variable {R : Type} [CommSemiring R] [StarRing R] {I : OpsIface α (TVal R)} {M : α → List Nat → R} {c : Circ α}

/-- The adjoints of the operations of a circuit exist and mean the conjugate transposes. -/
def OpsAdjoint (I : OpsIface α (TVal R)) (M : α → List Nat → R) (adj : α → Except Err α) (c : Circ α) : Prop :=
  ∀ p ∈ c, ∃ s t op' t', adj p.2.op = .ok op' ∧ Means I (M p.2.op) p.2.op s t ∧ Means I (M op') op' (flipShape s) t' ∧
    ConjTransposed (M op') (M p.2.op) (inPlaces s).length (outPlaces s).length

theorem maxTime_flip_times {f : α → α} {T : Int} {c : Circ α}
    (hz : (c.filter fun p => p.2.qubits = []).Pairwise fun p p' => p.2.time ≠ p'.2.time) :
    ((c.map (flipEntry f T) : Circ α).filter fun p => p.2.qubits = []).Pairwise fun p p' => p.2.time ≠ p'.2.time := by
  rw [List.filter_map, List.pairwise_map]
  refine List.Pairwise.imp (fun {a b} hab hc => hab ?_) hz
  simp only [flipEntry] at hc
  omega

/-- The adjoint of a valid circuit means the conjugate transpose. -/
theorem means_adjoint {adj : α → Except Err α} (hn : c.keys.Nodup) {s : List (List Letter)} (hs : c.shape I.shape = .ok s)
    (hm : OpsMean I M c) (ha : OpsAdjoint I M adj c)
    (hz : (c.filter fun p => p.2.qubits = []).Pairwise fun p p' => p.2.time ≠ p'.2.time) :
    ∃ c', c.adjoint I adj = .ok c' ∧ c' = c.map (flipEntry (adjD adj) c.maxTime) ∧ c'.keys.Nodup ∧
      c'.shape I.shape = .ok (flipShape s) ∧ OpsMean I M c' ∧
      ConjTransposed (circMat I.shape M c') (circMat I.shape M c) (inPlaces s).length (outPlaces s).length := by
  obtain ⟨hp, tn0, e0, -, -, e1⟩ := means_circ hn hs hm
  have hfit := hm.fitting
  have hmeans' : ∀ p ∈ c, ∃ s t', Means I (M (adjD adj p.2.op)) (adjD adj p.2.op) (flipShape s) t' ∧
      I.shape p.2.op = .ok s ∧ s.length = p.2.qubits.length ∧ p.2.qubits.Nodup := fun p hp => by
    obtain ⟨s, t, op', t', h1, h2, h3, -⟩ := ha p hp
    obtain ⟨s', t'', k1, k2, k3⟩ := hm p hp
    have : s' = s := by have := k1.shape; rw [h2.shape] at this; cases this; rfl
    subst this
    have : adjD adj p.2.op = op' := by unfold adjD; rw [h1]
    exact ⟨s', t', this ▸ h3, k1.shape, k2, k3⟩
  obtain ⟨c', tn, tn', outQ, inQ, a1, a2, a3, a4, a4', a5, a6, a7, a8, a9, a10, a11, a12, a13, a14⟩ := c38_core (I := I) (val := TVal.tot)
    (ten := totD I) (adj := adj) hn hp
    (fun p hp => by
      obtain ⟨s, t, h1, h2, h3⟩ := hm p hp
      exact convertible_of h1 h2 h3 _)
    (fun p hp => by
      obtain ⟨s, t, op', t', h1, h2, h3, h4⟩ := ha p hp
      obtain ⟨s', t'', k1, k2, k3⟩ := hm p hp
      have : s' = s := by have := k1.shape; rw [h2.shape] at this; cases this; rfl
      subst this
      have hl' : (flipShape s').length = p.2.qubits.length := by simpa [flipShape] using k2
      refine ⟨op', s', h1, h2.shape, h3.shape, h3.pure, fun tm => convertible_of h3 hl' k3 tm, ?_⟩
      rw [outQubits_length k2 k3, inQubits_length k2 k3, h2.totD_eq, h3.totD_eq]
      intro x y hx hy hxb hyb
      rw [h3.entries, h2.entries]
      · exact h4 x y hx hy hxb hyb
      · exact Bits.append ⟨hy, hyb⟩ ⟨hx, hxb⟩
      · rw [outPlaces_flip, inPlaces_flip]; exact Bits.append ⟨hx, hxb⟩ ⟨hy, hyb⟩) hz
  have hm' : OpsMean I M c' := fun p hp => by
    rw [a2] at hp
    obtain ⟨p0, hp0, rfl⟩ := List.mem_map.1 hp
    obtain ⟨s, t', h1, -, h3, h4⟩ := hmeans' p0 hp0
    exact ⟨_, t', h1, by simpa [flipShape, flipEntry] using h3, h4⟩
  have hfit' := hm'.fitting
  have hval := (c35_shape_iff hfit).1 ⟨s, hs⟩
  obtain ⟨-, hword⟩ := wired_of_valid hval (timeSorted_perm c) (timeSorted_sorted c)
  obtain ⟨s', hs'⟩ := isPure_valid a7
  have hval' := (c35_shape_iff hfit').1 ⟨s', hs'⟩
  obtain ⟨-, hword'⟩ := wired_of_valid hval' (timeSorted_perm c') (timeSorted_sorted c')
  have hflip : ∀ q, wireWord I.shape q (timeSorted c') = flipWord (wireWord I.shape q (timeSorted c)) := fun q => by
    obtain ⟨l, hl, -⟩ := hval q
    rw [← hword q l hl, ← hword' q (l.reverse.map (flipEntry (adjD adj) c.maxTime)) (a2 ▸ flip_timeline hl)]
    refine flip_word fun p hp => ?_
    obtain ⟨s, t', h1, h2, -, h4⟩ := hmeans' p (List.mem_filter.1 (hl.1.mem_iff.1 hp)).1
    exact ⟨h4, by simp [shapeD, h1.shape, h2]⟩
  have hq : qubitsOf c' = qubitsOf c := by
    unfold qubitsOf
    rw [a2, List.flatMap_map]
    rfl
  have hshape : s' = flipShape s := by
    rw [shape_exact hfit' hs', shape_exact hfit hs, hq]
    unfold flipShape
    rw [List.map_map]
    refine List.map_congr_left fun q _ => ?_
    rw [hflip, endsWord_flip]; rfl
  subst hshape
  refine ⟨c', a1, a2, a3, hs', hm', ?_⟩
  obtain ⟨-, tn1, f0, -, -, f1⟩ := means_circ a3 hs' hm'
  rw [a8] at e0; cases e0
  rw [a9] at f0; cases f0
  obtain rfl : outQ = circOuts I.shape c := sorted_unique a4 (circOuts_sorted _ _) fun q => by
    obtain ⟨l, hl, -⟩ := hval q
    rw [mem_circOuts, (a10 q l hl).1, hword q l hl]
  obtain rfl : inQ = circIns I.shape c := sorted_unique a4' (circIns_sorted _ _) fun q => by
    obtain ⟨l, hl, -⟩ := hval q
    rw [mem_circIns, (a10 q l hl).2, hword q l hl]
  rw [outPlaces_flip, inPlaces_flip] at f1
  rw [← outs_length hfit hs, ← ins_length hfit hs] at a14
  intro x y hx hy hxb hyb
  rw [← e1 _ (Bits.append ⟨hy, hyb⟩ ⟨hx, hxb⟩), ← f1 _ (Bits.append ⟨hx, hxb⟩ ⟨hy, hyb⟩), TVal.tot_ofTN, TVal.tot_ofTN,
    ← a5, ← a6]
  exact a14 x y hx hy hxb hyb

end Adjoint

end Circ

end Verif
