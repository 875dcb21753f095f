import Verif.Lemmas.Control
/-!
# Controlled operations acting on states
-/

set_option linter.unusedSectionVars false

namespace Verif

variable {R : Type} [CommSemiring R]

namespace Circ

variable {α : Type} {sh : ShapeFn α} {ten : α → List Nat → R}

/-- If the two operations share a qubit, the first one happens first. -/
def Follows (p p' : Nm × OpRec α) : Prop := (∃ q ∈ p.2.qubits, q ∈ p'.2.qubits) → p.2.time < p'.2.time

/-- Only the order of operations that share a qubit matters. -/
theorem evolve_follows : ∀ {l l' : Circ α}, l.Perm l' → l.Pairwise Follows → l'.Pairwise Follows → ∀ Ψ : (Int → Nat) → R,
    evolve (l.map fun p => actOf sh ten p.2) Ψ = evolve (l'.map fun p => actOf sh ten p.2) Ψ
  | [], l', hp, _, _, Ψ => by rw [List.nil_perm.1 hp]
  | p :: l, l', hp, hs, hs', Ψ => by
    obtain ⟨A, B, rfl⟩ := List.append_of_mem (hp.mem_iff.1 List.mem_cons_self)
    have hp' : l.Perm (A ++ B) := by
      have := hp.trans List.perm_middle
      exact this.cons_inv
    obtain ⟨hs1, hs2⟩ := List.pairwise_cons.1 hs
    rw [List.pairwise_append] at hs'
    obtain ⟨ha, hb, hab⟩ := hs'
    obtain ⟨hb1, hb2⟩ := List.pairwise_cons.1 hb
    have hA : ∀ p' ∈ A, ∀ q ∈ p.2.qubits, q ∉ p'.2.qubits := fun p' hA q hq hq' => by
      have hm : p' ∈ l := hp'.mem_iff.2 (List.mem_append_left _ hA)
      have h1 := hs1 p' hm ⟨q, hq, hq'⟩
      have h2 := hab p' hA p List.mem_cons_self ⟨q, hq', hq⟩
      omega
    have ih := evolve_follows hp' hs2 (List.pairwise_append.2 ⟨ha, hb2, fun a ha b hb => hab a ha b (by simp [hb])⟩)
      ((actOf sh ten p.2).apply Ψ)
    rw [List.map_cons, evolve, ih, List.map_append, List.map_append, List.map_cons, evolve_append, evolve_append, evolve,
      evolve_front hA]

/-- In a valid circuit operations sharing a qubit happen one after the other. -/
theorem timeSorted_follows {c : Circ α} (h : ∀ q, ∃ l, Timeline c q l ∧ Connectable (wireWord sh q l)) :
    (timeSorted c).Pairwise Follows := by
  have key : ∀ q, (timeSorted c).Pairwise fun p p' => q ∈ p.2.qubits → q ∈ p'.2.qubits → p.2.time < p'.2.time := fun q => by
    obtain ⟨l, hl, -⟩ := h q
    have h3 : (touch q (timeSorted c)).Pairwise fun p p' => p.2.time ≤ p'.2.time := (timeSorted_sorted c).filter _
    have h1 : (touch q (timeSorted c)).Perm l := ((timeSorted_perm c).filter _).trans hl.1.symm
    have h4 : ((touch q (timeSorted c)).map fun p => p.2.time).Nodup := by
      refine (h1.map _).nodup_iff.2 ?_
      rw [List.Nodup, List.pairwise_map]
      exact hl.2.imp fun h => ne_of_lt h
    rw [List.Nodup, List.pairwise_map] at h4
    have h5 : (touch q (timeSorted c)).Pairwise fun p p' => p.2.time < p'.2.time := (h3.and h4).imp fun h => lt_of_le_of_ne h.1 h.2
    unfold touch at h5
    rw [List.pairwise_filter] at h5
    exact h5.imp fun h h1 h2 => h (by simpa using h1) (by simpa using h2)
  rw [List.pairwise_iff_getElem]
  intro i j hi hj hij ⟨q, h1, h2⟩
  exact List.pairwise_iff_getElem.1 (key q) i j hi hj hij h1 h2

end Circ

/-! ### The qubits a state depends on -/

theorem Act.apply_dep {p : Act R} {Q : List Int} {Ψ : (Int → Nat) → R} (hi : ∀ q ∈ p.ins, q ∈ Q) (ho : ∀ q ∈ p.outs, q ∈ Q)
    (h : DependsOn Ψ Q) : DependsOn (p.apply Ψ) Q := by
  intro w w' hw
  unfold Act.apply
  have e : p.outs.map w = p.outs.map w' := List.map_congr_left fun q hq => hw q (ho q hq)
  rw [e]
  refine sumOver_base_dep (l' := Q) (fun x y hxy => ?_) fun q hq _ => hw q hq
  have e2 : p.ins.map x = p.ins.map y := List.map_congr_left fun q hq => hxy q (hi q hq)
  show p.ten _ * Ψ x = p.ten _ * Ψ y
  rw [e2, h x y hxy]

theorem evolve_dep {l : List (Act R)} {Q : List Int} (hl : ∀ p ∈ l, (∀ q ∈ p.ins, q ∈ Q) ∧ ∀ q ∈ p.outs, q ∈ Q)
    {Ψ : (Int → Nat) → R} (h : DependsOn Ψ Q) : DependsOn (evolve l Ψ) Q := by
  induction l generalizing Ψ with
  | nil => exact h
  | cons p l ih =>
    obtain ⟨h1, h2⟩ := hl p (by simp)
    exact ih (fun p hp => hl p (by simp [hp])) (Act.apply_dep h1 h2 h)

/-! ### The controlled operation on the state -/

theorem controlMat_cons (A : List Nat → R) (b a a' : Nat) {X Y : List Nat} {m : Nat} (hX : X.length = m) :
    controlMat A m b ((a :: X) ++ (a' :: Y)) = if a = a' then (if a = b then A (X ++ Y) else if X = Y then 1 else 0) else 0 := by
  unfold controlMat
  have h1 : ((a :: X) ++ (a' :: Y)).take (m + 1) = a :: X := by
    rw [List.take_left' (by simp [hX])]
  have h2 : ((a :: X) ++ (a' :: Y)).drop (m + 1) = a' :: Y := by
    rw [List.drop_left' (by simp [hX])]
  rw [h1, h2]
  exact if_congr (by simp) (if_congr (by simp) rfl (if_congr (by simp) rfl rfl)) rfl

/-- The controlled operation: the control is qubit 0, the others are renamed. -/
def Act.ctrl (φ : Int → Int) (b : Nat) (p : Act R) : Act R :=
  ⟨controlMat p.ten p.outs.length b, 0 :: p.ins.map φ, 0 :: p.outs.map φ⟩

theorem sumOver_relabel {φ : Int → Int} {l : List Int} (h : ∀ q ∈ l, ∀ q', φ q' = φ q → q' = q) (f : (Int → Nat) → R)
    (a : Int → Nat) : sumOver bits (l.map φ) (fun y => f (y ∘ φ)) a = sumOver bits l f (a ∘ φ) := by
  induction l generalizing a with
  | nil => rfl
  | cons q l ih =>
    rw [List.map_cons, sumOver_cons, sumOver_cons]
    refine Finset.sum_congr rfl fun x _ => ?_
    rw [ih fun q hq => h q (by simp [hq])]
    congr 1
    funext q'
    by_cases e : q' = q
    · subst e; simp
    · have : φ q' ≠ φ q := fun e' => e (h q (by simp) q' e')
      simp [this, e]

/-- The state of control and qubits: the control has the value `a`; the qubits are in the state `Ψ` if `a = b` and in
the state `Θ` otherwise. -/
def Joint (φ : Int → Int) (a b : Nat) (Θ Ψ Ψ' : (Int → Nat) → R) : Prop :=
  ∀ w : Int → Nat, (∀ q, w q < 2) → Ψ' w = if w 0 = a then (if a = b then Ψ (w ∘ φ) else Θ w) else 0

theorem Joint.apply {φ : Int → Int} {a b : Nat} {Θ Ψ Ψ' : (Int → Nat) → R} (h : Joint φ a b Θ Ψ Ψ') (ha : a < 2) {p : Act R}
    (hio : p.ins = p.outs) (hn : p.ins.Nodup) (hφ : ∀ q ∈ p.ins, ∀ q', φ q' = φ q → q' = q) (h0 : ∀ q, φ q ≠ 0) :
    Joint φ a b Θ (p.apply Ψ) ((p.ctrl φ b).apply Ψ') := by
  intro w hw
  have h0' : (0 : Int) ∉ p.ins.map φ := fun hm => by
    obtain ⟨q, -, hq⟩ := List.mem_map.1 hm
    exact h0 q hq
  have hterm : ∀ (x0 : Nat), x0 < 2 → ∀ y, Reach bits (p.ins.map φ) (Function.update w 0 x0) y →
      (controlMat p.ten p.outs.length b ((w 0 :: p.ins.map (w ∘ φ)) ++ (x0 :: p.ins.map (y ∘ φ))) * Ψ' y) =
        if w 0 = a ∧ x0 = a then (if a = b then p.ten (p.ins.map (w ∘ φ) ++ p.ins.map (y ∘ φ)) * Ψ (y ∘ φ) else
          if p.ins.map (w ∘ φ) = p.ins.map (y ∘ φ) then Θ y else 0) else 0 := by
    intro x0 hx0 y hy
    have hy0 : y 0 = x0 := by rw [hy.1 0 h0']; simp
    have hyb : ∀ q, y q < 2 := fun q => by
      by_cases hq : q ∈ p.ins.map φ
      · exact Finset.mem_range.1 (hy.2 q hq)
      · rw [hy.1 q hq]
        by_cases e : q = 0
        · subst e; simpa using hx0
        · simpa [e] using hw q
    rw [controlMat_cons _ _ _ _ (by rw [List.length_map, hio]), h y hyb, hy0]
    by_cases e1 : x0 = a
    · subst e1
      by_cases e2 : w 0 = x0
      · simp only [e2, true_and, if_true]
        by_cases e3 : x0 = b
        · simp [e3]
        · simp only [e3, if_false]
          split <;> simp
      · simp [e2]
    · simp [e1]
  have expand : (p.ctrl φ b).apply Ψ' w = ∑ x0 ∈ Finset.range 2, sumOver bits (p.ins.map φ) (fun y =>
      if w 0 = a ∧ x0 = a then (if a = b then p.ten (p.ins.map (w ∘ φ) ++ p.ins.map (y ∘ φ)) * Ψ (y ∘ φ) else
          if p.ins.map (w ∘ φ) = p.ins.map (y ∘ φ) then Θ y else 0) else 0) (Function.update w 0 x0) := by
    unfold Act.apply Act.ctrl
    dsimp only
    rw [sumOver_cons]
    refine Finset.sum_congr rfl fun x0 hx0 => sumOver_congr_reach fun y hy => ?_
    rw [← hterm x0 (Finset.mem_range.1 hx0) y hy]
    have hy0 : y 0 = x0 := by rw [hy.1 0 h0']; simp
    rw [← hio, List.map_cons, List.map_cons, List.map_map, List.map_map, hy0]
  rw [expand]
  by_cases hwa : w 0 = a
  · rw [if_pos hwa, Finset.sum_eq_single a]
    · have hupd : Function.update w 0 a = w := by rw [← hwa, Function.update_eq_self]
      rw [hupd]
      by_cases hab : a = b
      · simp only [hwa, hab, true_and, if_true]
        refine (sumOver_relabel hφ (fun z => p.ten (p.ins.map (w ∘ φ) ++ p.ins.map z) * Ψ z) w).trans ?_
        unfold Act.apply
        rw [← hio]
      · simp only [hwa, hab, true_and, if_true, if_false]
        have hnφ : (p.ins.map φ).Nodup := by
          rw [List.nodup_map_iff_inj_on hn]
          intro q _ q' hq' e
          exact hφ q' hq' q e
        have := sumOver_pin (dom := bits) (l := p.ins.map φ) (a := w) (fun e _ => Finset.mem_range.2 (hw e)) hnφ Θ w
        rw [show (fun e => if e ∈ p.ins.map φ then w e else w e) = w from funext fun e => by split <;> rfl] at this
        rw [← this]
        refine sumOver_congr fun y => if_congr ?_ rfl rfl
        rw [List.map_map, List.map_map]
        exact eq_comm
    · intro x0 _ hne
      simp only [hne, and_false, if_false]
      exact sumOver_zero _ _ _
    · intro hna; exact absurd (Finset.mem_range.2 ha) hna
  · rw [if_neg hwa]
    refine Finset.sum_eq_zero fun x0 _ => ?_
    simp only [hwa, false_and, if_false]
    exact sumOver_zero _ _ _

theorem Joint.evolve {φ : Int → Int} {a b : Nat} {Θ : (Int → Nat) → R} (ha : a < 2) (h0 : ∀ q, φ q ≠ 0) {l : List (Act R)}
    (hl : ∀ p ∈ l, p.ins = p.outs ∧ p.ins.Nodup ∧ ∀ q ∈ p.ins, ∀ q', φ q' = φ q → q' = q) {Ψ Ψ' : (Int → Nat) → R}
    (h : Joint φ a b Θ Ψ Ψ') : Joint φ a b Θ (Verif.evolve l Ψ) (Verif.evolve (l.map (Act.ctrl φ b)) Ψ') := by
  induction l generalizing Ψ Ψ' with
  | nil => exact h
  | cons p l ih =>
    obtain ⟨h1, h2, h3⟩ := hl p (by simp)
    exact ih (fun p hp => hl p (by simp [hp])) (h.apply ha h1 h2 h3 h0)

end Verif
