import Verif.Lemmas.Trace
import Verif.Lemmas.Reshape
import Verif.Lemmas.ControlCirc
import Verif.Props.DensPure
/-!
# Matrices with orthonormal columns: controlled gates, circuits and controlled circuits
-/

set_option linter.unusedSectionVars false

namespace Verif

variable {R : Type} [CommSemiring R]

/-! ### Sums over basis values -/

theorem sumIdx_bits {M : Type} [AddCommMonoid M] : ∀ {n : Nat} {f g : List Nat → M}, (∀ w, Bits w n → f w = g w) →
    sumIdx (List.replicate n 2) f = sumIdx (List.replicate n 2) g
  | 0, _, _, h => h [] ⟨rfl, by simp⟩
  | n + 1, _, _, h => Finset.sum_congr rfl fun x hx => sumIdx_bits fun w hw => h (x :: w) ⟨by rw [List.length_cons, hw.1], fun b hb => by
      rcases List.mem_cons.1 hb with rfl | hb
      · exact Finset.mem_range.1 hx
      · exact hw.2 b hb⟩

theorem sumIdx_zero {M : Type} [AddCommMonoid M] : ∀ (n : Nat), sumIdx (List.replicate n 2) (fun _ => (0 : M)) = 0
  | 0 => rfl
  | n + 1 => Finset.sum_eq_zero fun _ _ => sumIdx_zero n

theorem sumIdx_list {M ι : Type} [AddCommMonoid M] (n : Nat) (l : List ι) (f : ι → List Nat → M) :
    sumIdx (List.replicate n 2) (fun w => (l.map fun i => f i w).sum) = (l.map fun i => sumIdx (List.replicate n 2) (f i)).sum := by
  have add : ∀ (n : Nat) (f g : List Nat → M), sumIdx (List.replicate n 2) (fun w => f w + g w) =
      sumIdx (List.replicate n 2) f + sumIdx (List.replicate n 2) g := by
    intro n
    induction n with
    | zero => exact fun _ _ => rfl
    | succ n ih =>
      intro f g
      show (∑ x ∈ Finset.range 2, sumIdx (List.replicate n 2) fun w => f (x :: w) + g (x :: w)) = _
      rw [Finset.sum_congr rfl fun x _ => ih (fun w => f (x :: w)) fun w => g (x :: w), Finset.sum_add_distrib]
      rfl
  induction l with
  | nil => exact sumIdx_zero n
  | cons i l ih =>
    simp only [List.map_cons, List.sum_cons]
    rw [add, ih]

theorem sumIdx_pin {M : Type} [AddCommMonoid M] : ∀ {n : Nat} {y : List Nat}, Bits y n → ∀ f : List Nat → M,
    sumIdx (List.replicate n 2) (fun w => if w = y then f w else 0) = f y
  | 0, y, h, f => by
    obtain rfl := List.length_eq_zero_iff.1 h.1
    rfl
  | n + 1, [], h, _ => by simp [Bits] at h
  | n + 1, b :: y, h, f => by
    have hb : b < 2 := h.2 b List.mem_cons_self
    have hy : Bits y n := ⟨by simpa using h.1, fun v hv => h.2 v (List.mem_cons_of_mem _ hv)⟩
    show (∑ x ∈ Finset.range 2, sumIdx (List.replicate n 2) fun w => if x :: w = b :: y then f (x :: w) else 0) = _
    rw [Finset.sum_eq_single b]
    · refine Eq.trans ?_ (sumIdx_pin hy fun w => f (b :: w))
      refine sumIdx_bits fun w _ => if_congr ?_ rfl rfl
      simp
    · intro x _ hx
      refine Eq.trans (sumIdx_bits fun w _ => ?_) (sumIdx_zero n)
      rw [if_neg]
      simp [hx]
    · intro h'; exact absurd (Finset.mem_range.2 hb) h'

/-- Summing over the digits is summing over the numbers. -/
theorem sumIdx_binary {M : Type} [AddCommMonoid M] : ∀ (n : Nat) (f : Nat → M),
    sumIdx (List.replicate n 2) (fun w => f (binary w)) = ∑ k ∈ Finset.range (2 ^ n), f k
  | 0, f => by simp [sumIdx, binary]
  | n + 1, f => by
    show (∑ x ∈ Finset.range 2, sumIdx (List.replicate n 2) fun w => f (binary (x :: w))) = _
    have e : ∀ x, sumIdx (List.replicate n 2) (fun w => f (binary (x :: w))) = ∑ k ∈ Finset.range (2 ^ n), f (x * 2 ^ n + k) := fun x => by
      rw [← sumIdx_binary n fun k => f (x * 2 ^ n + k)]
      refine sumIdx_bits fun w hw => ?_
      rw [binary_cons, hw.1]
    rw [Finset.sum_congr rfl fun x _ => e x, Finset.sum_range_succ, Finset.sum_range_one, pow_succ, Nat.mul_two, Finset.sum_range_add]
    simp

theorem sum_places {E : Type} [DecidableEq E] {l : List E} (hn : l.Nodup) (g : List Nat → R) (a : E → Nat) :
    sumOver (fun _ => Finset.range 2) l (fun w => g (l.map w)) a = sumIdx (List.replicate l.length 2) g :=
  sumOver_eq_sumIdx hn (by simp) (fun k e d _ hd => by
    rw [List.getElem?_replicate] at hd
    split at hd
    · cases hd; rfl
    · cases hd) g a

variable [StarRing R]

theorem keeps_pair {U : List Nat → R} {o i : Nat} (h : Isometric U o i) : KeepsTrace (fun idx => pairMat U (idx.length / 2) idx) o i := by
  intro x x' hx hx'
  rw [← h x x' hx hx']
  refine sumIdx_bits fun w hw => ?_
  rw [List.append_assoc (w ++ x)]
  exact pairMat_append (m := o + i) (by rw [List.length_append, hw.1, hx.1]) (by rw [List.length_append, hw.1, hx'.1])

/-- The controlled version of a matrix with orthonormal columns. -/
theorem isometric_control {A : List Nat → R} {m b : Nat} (h : Isometric A m m) : Isometric (controlMat A m b) (m + 1) (m + 1) := by
  intro x x' hx hx'
  cases x with
  | nil => simp [Bits] at hx
  | cons c y =>
    cases x' with
    | nil => simp [Bits] at hx'
    | cons c' y' =>
      have hc : c < 2 := hx.2 c List.mem_cons_self
      have hy : Bits y m := ⟨by simpa using hx.1, fun v hv => hx.2 v (List.mem_cons_of_mem _ hv)⟩
      have hy' : Bits y' m := ⟨by simpa using hx'.1, fun v hv => hx'.2 v (List.mem_cons_of_mem _ hv)⟩
      have key : ∀ (d : Nat) (w z : List Nat) (e : Nat), Bits w m → controlMat A m b (d :: w ++ e :: z) =
          if d = e then (if d = b then A (w ++ z) else if w = z then 1 else 0) else 0 := fun d w z e hw => by
        have l1 : (d :: w).length = m + 1 := by rw [List.length_cons, hw.1]
        unfold controlMat
        rw [List.take_left' l1, List.drop_left' l1]
        simp only [List.cons_append, List.head?_cons, Option.some.injEq, List.tail_cons]
        congr
      show (∑ d ∈ Finset.range 2, sumIdx (List.replicate m 2) fun w => controlMat A m b (d :: w ++ c :: y) * star (controlMat A m b (d :: w ++ c' :: y'))) = _
      rw [Finset.sum_eq_single c]
      · have e1 : sumIdx (List.replicate m 2) (fun w => controlMat A m b (c :: w ++ c :: y) * star (controlMat A m b (c :: w ++ c' :: y'))) =
            sumIdx (List.replicate m 2) (fun w => if c = c' then (if c = b then A (w ++ y) * star (A (w ++ y')) else if w = y then (if w = y' then 1 else 0) else 0) else 0) := by
          refine sumIdx_bits fun w hw => ?_
          rw [key _ _ _ _ hw, key _ _ _ _ hw, if_pos rfl]
          by_cases h1 : c = c' <;> by_cases h2 : c = b <;> by_cases h3 : w = y <;> by_cases h4 : w = y' <;> simp [h1, h2, h3, h4]
          all_goals simp_all
        rw [e1]
        by_cases h1 : c = c'
        · subst h1
          simp only [if_true, List.cons.injEq, true_and]
          by_cases h2 : c = b
          · simp only [h2, if_true]
            exact h y y' hy hy'
          · simp only [h2, if_false]
            exact sumIdx_pin hy fun w => if w = y' then 1 else 0
        · simp only [h1, if_false, List.cons.injEq, false_and]
          exact sumIdx_zero m
      · intro d _ hd
        refine Eq.trans (sumIdx_bits fun w hw => ?_) (sumIdx_zero m)
        rw [key _ _ _ _ hw, if_neg hd, zero_mul]
      · intro h'; exact absurd (Finset.mem_range.2 hc) h'

/-- A block diagonal matrix whose blocks have orthonormal columns. -/
theorem isometric_block {T : List Nat → R} {s : List (List Letter)}
    (h : ∀ cs, Bits cs (ctrlPlaces s).length → Isometric (fun idx => T (cs ++ idx)) ((outPlaces s).filter (· ∉ ctrlPlaces s)).length
      ((inPlaces s).filter (· ∉ ctrlPlaces s)).length) : Isometric (blockMat T s) (outPlaces s).length (inPlaces s).length := by
  intro x x' hx hx'
  have ndo : (outPlaces s).Nodup := List.nodup_range.filter _
  have ndi : (inPlaces s).Nodup := List.nodup_range.filter _
  have ndc : (ctrlPlaces s).Nodup := List.nodup_range.filter _
  set O := outPlaces s with hO
  set I := inPlaces s with hI
  set C := ctrlPlaces s with hC
  have hCO : ∀ k ∈ C, k ∈ O := fun k hk => (ctrlPlaces_sub hk).1
  have hCI : ∀ k ∈ C, k ∈ I := fun k hk => (ctrlPlaces_sub hk).2
  set v := readAt I x with hv
  set v' := readAt I x' with hv'
  have ex : x = I.map v := by rw [map_readAt ndi (by rw [hx.1]), List.take_of_length_le (by rw [hx.1])]
  have ex' : x' = I.map v' := by rw [map_readAt ndi (by rw [hx'.1]), List.take_of_length_le (by rw [hx'.1])]
  have gv : ∀ k, v k < 2 := readAt_bits hx.2
  have gv' : ∀ k, v' k < 2 := readAt_bits hx'.2
  have bl : ∀ (u : Nat → Nat) (z : List Nat), blockMat T s (O.map u ++ z) =
      if C.map u = C.map (readAt I z) then T (C.map u ++ (O.filter (· ∉ C)).map u ++ (I.filter (· ∉ C)).map (readAt I z)) else 0 := fun u z => by
    unfold blockMat
    dsimp only
    rw [← hO, ← hI, ← hC, List.drop_left' (List.length_map _)]
    have e1 : ∀ k ∈ C, readAt O (O.map u ++ z) k = u k := fun k hk => readAt_map (hCO k hk)
    have e2 : C.map (readAt O (O.map u ++ z)) = C.map u := List.map_congr_left e1
    have e3 : (O.filter (· ∉ C)).map (readAt O (O.map u ++ z)) = (O.filter (· ∉ C)).map u :=
      List.map_congr_left fun k hk => readAt_map (List.mem_of_mem_filter hk)
    rw [e2, e3]
    refine if_congr ?_ rfl rfl
    rw [List.map_inj_left]
    exact ⟨fun h k hk => by rw [← e1 k hk]; exact h k hk, fun h k hk => by rw [e1 k hk]; exact h k hk⟩
  have perm : O.Perm (O.filter (· ∉ C) ++ C) := by
    refine (List.perm_ext_iff_of_nodup ndo ?_).2 fun q => ?_
    · refine List.nodup_append.2 ⟨ndo.filter _, ndc, fun a ha b hb hab => ?_⟩
      have := (List.mem_filter.1 ha).2
      simp only [decide_eq_true_eq] at this
      exact this (hab ▸ hb)
    · simp only [List.mem_append, List.mem_filter, decide_eq_true_eq]
      by_cases hq : q ∈ C
      · simp [hq, hCO q hq]
      · simp [hq]
  rw [← sum_places ndo _ fun _ => 0, sumOver_perm perm, sumOver_append]
  have step : ∀ b : Nat → Nat, sumOver (fun _ => Finset.range 2) C (fun u => blockMat T s (O.map u ++ x) * star (blockMat T s (O.map u ++ x'))) b =
      if C.map v = C.map v' then T (C.map v ++ ((O.filter (· ∉ C)).map b ++ (I.filter (· ∉ C)).map v)) *
        star (T (C.map v ++ ((O.filter (· ∉ C)).map b ++ (I.filter (· ∉ C)).map v'))) else 0 := fun b => by
    by_cases hc : C.map v = C.map v'
    · rw [if_pos hc]
      have e : ∀ u, blockMat T s (O.map u ++ x) * star (blockMat T s (O.map u ++ x')) = if C.map u = C.map v then
          T (C.map u ++ (O.filter (· ∉ C)).map u ++ (I.filter (· ∉ C)).map v) *
            star (T (C.map u ++ (O.filter (· ∉ C)).map u ++ (I.filter (· ∉ C)).map v')) else 0 := fun u => by
        rw [bl, bl, ← hv, ← hv', ← hc]
        by_cases h1 : C.map u = C.map v <;> simp [h1]
      rw [sumOver_congr e, sumOver_pin (fun k _ => Finset.mem_range.2 (gv k)) ndc]
      have e1 : C.map (fun k => if k ∈ C then v k else b k) = C.map v := List.map_congr_left fun k hk => if_pos hk
      have e2 : (O.filter (· ∉ C)).map (fun k => if k ∈ C then v k else b k) = (O.filter (· ∉ C)).map b :=
        List.map_congr_left fun k hk => if_neg (by simpa using (List.mem_filter.1 hk).2)
      rw [e1, e2, List.append_assoc, List.append_assoc]
    · rw [if_neg hc]
      refine (sumOver_congr fun u => ?_).trans (sumOver_zero _ _ _)
      rw [bl, bl, ← hv, ← hv']
      by_cases h1 : C.map u = C.map v
      · rw [if_neg (c := C.map u = C.map v') fun h2 => hc (h1.symm.trans h2), star_zero, mul_zero]
      · rw [if_neg h1, zero_mul]
  rw [sumOver_congr step]
  have hb : ∀ (l : List Nat) {z : Nat → Nat}, (∀ k, z k < 2) → Bits (l.map z) l.length := fun l z hz => ⟨by simp, fun a ha => by
    obtain ⟨k, -, rfl⟩ := List.mem_map.1 ha
    exact hz k⟩
  by_cases hc : C.map v = C.map v'
  · simp only [hc, if_true]
    rw [← hc]
    have := sum_places (ndo.filter (· ∉ C)) (fun w => T (C.map v ++ (w ++ (I.filter (· ∉ C)).map v)) *
        star (T (C.map v ++ (w ++ (I.filter (· ∉ C)).map v')))) fun _ => 0
    rw [this, h _ (hb C gv) _ _ (hb _ gv) (hb _ gv')]
    refine if_congr ?_ rfl rfl
    rw [ex, ex', List.map_inj_left, List.map_inj_left]
    rw [List.map_inj_left] at hc
    refine ⟨fun h k hk => ?_, fun h k hk => h k (List.mem_of_mem_filter hk)⟩
    by_cases hkc : k ∈ C
    · exact hc k hkc
    · exact h k (List.mem_filter.2 ⟨hk, by simpa using hkc⟩)
  · simp only [hc, if_false]
    rw [sumOver_zero, if_neg]
    intro e
    exact hc (List.map_congr_left fun k _ => by rw [hv, hv', e])

variable {α : Type} {sh : Circ.ShapeFn α} {c : Circ α} {s : List (List Letter)}

/-- The matrix of a circuit of operations with orthonormal columns. -/
theorem Circ.isometric (hf : Fitting sh c) (hs : c.shape sh = .ok s) {ten : α → List Nat → R}
    (hk : ∀ p ∈ c, Isometric (ten p.2.op) (actOf sh ten p.2).outs.length (actOf sh ten p.2).ins.length) :
    Isometric (circMat sh ten c) (circOuts sh c).length (circIns sh c).length := by
  intro x x' hx hx'
  have key := Circ.keepsTrace hf hs (dens := fun op idx => pairMat (ten op) (idx.length / 2) idx) (fun p hp => keeps_pair (hk p hp)) x x' hx hx'
  rw [← key]
  refine sumIdx_bits fun w hw => ?_
  unfold circDens
  dsimp only
  have d1 : (w ++ x ++ w ++ x').drop (circOuts sh c).length = x ++ (w ++ x') := by
    rw [List.append_assoc, List.append_assoc, List.drop_left' hw.1]
  have d2 : (w ++ x ++ w ++ x').drop ((circOuts sh c).length + (circIns sh c).length) = w ++ x' := by
    rw [List.append_assoc, List.drop_left' (by rw [List.length_append, hw.1, hx.1])]
  have d3 : (w ++ x ++ w ++ x').drop ((circOuts sh c).length + (circIns sh c).length + (circOuts sh c).length) = x' := by
    rw [List.drop_left' (by rw [List.length_append, List.length_append, hw.1, hx.1])]
  rw [d1, d2, d3]
  have hbw : ∀ b ∈ w ++ x ++ w ++ x', b < 2 := fun b hb => by
    simp only [List.mem_append] at hb
    rcases hb with ((hb | hb) | hb) | hb
    exacts [hw.2 b hb, hx.2 b hb, hw.2 b hb, hx'.2 b hb]
  have hp : evolveDens ((timeSorted c).map fun p => actOf sh (fun op idx => pairMat (ten op) (idx.length / 2) idx) p.2)
      (basisDens (circIns sh c) (readAt (circIns sh c) (x ++ (w ++ x'))) (readAt (circIns sh c) x'))
      (readAt (circOuts sh c) (w ++ x ++ w ++ x')) (readAt (circOuts sh c) (w ++ x')) =
      evolve ((timeSorted c).map fun p => actOf sh ten p.2) (basisState (circIns sh c) (readAt (circIns sh c) (x ++ (w ++ x'))))
        (readAt (circOuts sh c) (w ++ x ++ w ++ x')) *
      star (evolve ((timeSorted c).map fun p => actOf sh ten p.2) (basisState (circIns sh c) (readAt (circIns sh c) x')) (readAt (circOuts sh c) (w ++ x'))) := by
    refine evolveDens_paired ?_ (fun w w' _ _ => basisDens_eq _ _ _ w w') (readAt_bits hbw) (readAt_bits fun b hb => ?_)
    · rw [List.forall₂_map_left_iff, List.forall₂_map_right_iff, List.forall₂_same]
      intro p _
      exact ⟨rfl, rfl, fun x y hx hy => pairMat_append hx.1 hy.1⟩
    · exact (List.mem_append.1 hb).elim (hw.2 b) (hx'.2 b)
  rw [hp]
  obtain ⟨h1, h2⟩ := sorted_flows hf hs ten
  unfold circMat
  rw [List.drop_left' hw.1, List.drop_left' hw.1]
  have hb : basisState (R := R) (circIns sh c) (readAt (circIns sh c) (x ++ (w ++ x'))) = basisState (circIns sh c) (readAt (circIns sh c) x) := by
    funext a
    unfold basisState
    refine if_congr ⟨fun h q hq => ?_, fun h q hq => ?_⟩ rfl rfl
    · rw [h q hq, Oper.readAt_append hx.1 hq]
    · rw [h q hq, Oper.readAt_append hx.1 hq]
  rw [hb]
  congr 1
  refine evolve_dependsOn (basisState_dependsOn _ _) _ _ fun q hq => ?_
  have hq := (h2 q).1 hq
  rw [Oper.readAt_append hw.1 hq, List.append_assoc, List.append_assoc, Oper.readAt_append hw.1 hq]

end Verif
