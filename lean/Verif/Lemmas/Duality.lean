import Verif.Lemmas.Evolve
import Verif.Lemmas.ConvertLoop
import Mathlib.Tactic.Ring
/-!
# Running operations backwards: transposition moves them to the other side of a pairing
-/

set_option linter.unusedSectionVars false

namespace Verif

variable {R : Type} [CommSemiring R]

/-- The qubits present after an operation. -/
def Act.after (Q : List Int) (p : Act R) : List Int := Q.filter (· ∉ p.ins) ++ p.outs

/-- The qubits present after a sequence of operations. -/
def afterAll (Q : List Int) : List (Act R) → List Int
  | [] => Q
  | p :: ps => afterAll (p.after Q) ps

/-- The operations find their inputs and do not produce qubits that are present already. -/
def Flows (Q : List Int) : List (Act R) → Prop
  | [] => Q.Nodup
  | p :: ps => Q.Nodup ∧ (∀ q ∈ p.ins, q ∈ Q) ∧ (∀ q ∈ p.outs, q ∈ Q → q ∈ p.ins) ∧ p.ins.Nodup ∧ p.outs.Nodup ∧
      Flows (p.after Q) ps

/-- `p'` is `p` run backwards. -/
structure Act.Transposes (p' p : Act R) : Prop where
  ins : p'.ins = p.outs
  outs : p'.outs = p.ins
  ten : ∀ w x : Int → Nat, (∀ q ∈ p.outs, w q < 2) → (∀ q ∈ p.ins, x q < 2) → p'.ten (p.ins.map x ++ p.outs.map w) = p.ten (p.outs.map w ++ p.ins.map x)

theorem Flows.nodup {Q : List Int} {l : List (Act R)} (h : Flows Q l) : Q.Nodup := by
  cases l with
  | nil => exact h
  | cons p l => exact h.1

theorem mem_after {Q : List Int} {p : Act R} {q : Int} : q ∈ p.after Q ↔ (q ∈ Q ∧ q ∉ p.ins) ∨ q ∈ p.outs := by
  unfold Act.after
  simp

theorem split_perm {Q ins : List Int} (hQ : Q.Nodup) (hi : ins.Nodup) (h : ∀ q ∈ ins, q ∈ Q) :
    Q.Perm (Q.filter (· ∉ ins) ++ ins) := by
  refine (List.perm_ext_iff_of_nodup hQ ?_).2 fun q => ?_
  · refine List.nodup_append.2 ⟨hQ.filter _, hi, fun a ha b hb hab => ?_⟩
    have := (List.mem_filter.1 ha).2
    simp only [decide_eq_true_eq] at this
    exact this (hab ▸ hb)
  · simp only [List.mem_append, List.mem_filter, decide_eq_true_eq]
    by_cases hq : q ∈ ins
    · simp [hq, h q hq]
    · simp [hq]

theorem apply_dependsOn {p : Act R} {Q : List Int} {Ψ : (Int → Nat) → R} (hΨ : DependsOn Ψ Q) :
    DependsOn (p.apply Ψ) (p.after Q) := by
  intro a b hab
  unfold Act.apply
  have h1 : p.outs.map a = p.outs.map b := List.map_congr_left fun q hq => hab q (mem_after.2 (Or.inr hq))
  have h2 : DependsOn (fun x => p.ten (p.outs.map a ++ p.ins.map x) * Ψ x) (Q ++ p.ins) := fun x y hxy => by
    have e1 : p.ins.map x = p.ins.map y := List.map_congr_left fun q hq => hxy q (List.mem_append_right _ hq)
    show p.ten _ * _ = p.ten _ * _
    rw [e1, hΨ x y fun q hq => hxy q (List.mem_append_left _ hq)]
  rw [← h1]
  refine sumOver_base_dep h2 fun q hq hqi => hab q (mem_after.2 (Or.inl ⟨?_, hqi⟩))
  exact (List.mem_append.1 hq).resolve_right hqi

theorem evolve_dependsOn {l : List (Act R)} {Q : List Int} {Ψ : (Int → Nat) → R} (hΨ : DependsOn Ψ Q) :
    DependsOn (evolve l Ψ) (afterAll Q l) := by
  induction l generalizing Q Ψ with
  | nil => exact hΨ
  | cons p l ih => exact ih (apply_dependsOn hΨ)

/-- One operation and its transpose. -/
theorem pair_apply {p p' : Act R} {Q : List Int} (hQ : Q.Nodup) (hi : ∀ q ∈ p.ins, q ∈ Q)
    (ho : ∀ q ∈ p.outs, q ∈ Q → q ∈ p.ins) (hni : p.ins.Nodup) (ht : p'.Transposes p)
    {Φ Ψ : (Int → Nat) → R} (hΦ : DependsOn Φ (p.after Q)) (hΨ : DependsOn Ψ Q) (a : Int → Nat) :
    sumOver bits (p.after Q) (fun w => Φ w * p.apply Ψ w) a = sumOver bits Q (fun x => p'.apply Φ x * Ψ x) a := by
  rw [sumOver_perm (split_perm hQ hni hi)]
  unfold Act.after
  rw [sumOver_append, sumOver_append]
  refine sumOver_congr fun b => ?_
  have e1 : sumOver bits p.outs (fun w => Φ w * p.apply Ψ w) b =
      sumOver bits p.outs (fun w => sumOver bits p.ins (fun x => Φ w * p.ten (p.outs.map w ++ p.ins.map x) * Ψ x) b) b := by
    refine sumOver_congr_reach fun w hw => ?_
    unfold Act.apply
    rw [← sumOver_const_mul]
    have hd : DependsOn (fun x => Φ w * (p.ten (p.outs.map w ++ p.ins.map x) * Ψ x)) (Q ++ p.ins) := fun x y hxy => by
      have e1 : p.ins.map x = p.ins.map y := List.map_congr_left fun q hq => hxy q (List.mem_append_right _ hq)
      show Φ w * (p.ten _ * _) = Φ w * (p.ten _ * _)
      rw [e1, hΨ x y fun q hq => hxy q (List.mem_append_left _ hq)]
    rw [sumOver_base_dep (b := b) hd fun q hq hqi => hw.1 q fun hqo =>
      hqi (ho q hqo ((List.mem_append.1 hq).resolve_right hqi))]
    exact sumOver_congr fun x => (mul_assoc _ _ _).symm
  have e2 : sumOver bits p.ins (fun x => p'.apply Φ x * Ψ x) b =
      sumOver bits p.ins (fun x => sumOver bits p.outs (fun w => Φ w * p.ten (p.outs.map w ++ p.ins.map x) * Ψ x) b) b := by
    refine sumOver_congr_reach fun x hx => ?_
    unfold Act.apply
    rw [ht.ins, ht.outs, mul_comm, ← sumOver_const_mul]
    have hd : DependsOn (fun w => Ψ x * (p'.ten (p.ins.map x ++ p.outs.map w) * Φ w)) (p.after Q) := fun w y hwy => by
      have e1 : p.outs.map w = p.outs.map y := List.map_congr_left fun q hq => hwy q (mem_after.2 (Or.inr hq))
      show Ψ x * (p'.ten _ * _) = Ψ x * (p'.ten _ * _)
      rw [e1, hΦ w y hwy]
    rw [sumOver_base_dep (b := b) hd fun q hq hqo => ?_]
    · refine sumOver_congr_reach fun w hw => ?_
      rw [ht.ten w x (fun q hq => Finset.mem_range.1 (hw.2 q hq)) fun q hq => Finset.mem_range.1 (hx.2 q hq)]
      ring
    · exact hx.1 q ((mem_after.1 hq).resolve_right hqo).2
  rw [e1, e2, sumOver_comm]

theorem evolve_snoc (m : List (Act R)) (p : Act R) (Φ : (Int → Nat) → R) :
    evolve (m ++ [p]) Φ = p.apply (evolve m Φ) := by
  induction m generalizing Φ with
  | nil => rfl
  | cons x m ih => exact ih (x.apply Φ)

theorem Flows.after_nodup {l : List (Act R)} {Q : List Int} (h : Flows Q l) : (afterAll Q l).Nodup := by
  induction l generalizing Q with
  | nil => exact h
  | cons p l ih => exact ih h.2.2.2.2.2

/-- A sequence of operations and the transposes in reverse order. -/
theorem pair_evolve {l l' : List (Act R)} (ht : List.Forall₂ Act.Transposes l'.reverse l) {Q : List Int} (hf : Flows Q l)
    {Φ Ψ : (Int → Nat) → R} (hΦ : DependsOn Φ (afterAll Q l)) (hΨ : DependsOn Ψ Q) (a : Int → Nat) :
    sumOver bits (afterAll Q l) (fun w => Φ w * evolve l Ψ w) a = sumOver bits Q (fun x => evolve l' Φ x * Ψ x) a ∧
      DependsOn (evolve l' Φ) Q := by
  induction l generalizing Q Ψ l' with
  | nil =>
    have : l' = [] := by
      rw [List.forall₂_nil_right_iff] at ht
      simpa using ht
    subst this
    exact ⟨rfl, hΦ⟩
  | cons p l ih =>
    obtain ⟨hQ, hi, ho, hni, hno, hf'⟩ := hf
    obtain ⟨p', r, hp', hr, hl'⟩ := List.forall₂_cons_right_iff.1 ht
    have hl : l' = r.reverse ++ [p'] := by
      rw [← List.reverse_reverse l', hl', List.reverse_cons]
    have hr' : List.Forall₂ Act.Transposes r.reverse.reverse l := by rw [List.reverse_reverse]; exact hr
    obtain ⟨h1, h2⟩ := ih hr' hf' hΦ (apply_dependsOn hΨ)
    have happ : evolve l' Φ = p'.apply (evolve r.reverse Φ) := by
      rw [hl, evolve_snoc]
    rw [happ]
    refine ⟨?_, ?_⟩
    · show sumOver bits (afterAll (p.after Q) l) (fun w => Φ w * evolve l (p.apply Ψ) w) a = _
      rw [h1, pair_apply hQ hi ho hni hp' h2 hΨ]
    · have := apply_dependsOn (p := p') h2
      intro x y hxy
      refine this x y fun q hq => hxy q ?_
      rcases mem_after.1 hq with ⟨h3, h4⟩ | h3
      · rw [hp'.ins] at h4
        exact ((mem_after.1 h3).resolve_right h4).1
      · rw [hp'.outs] at h3; exact hi q h3

theorem basisState_dependsOn (Q : List Int) (v : Int → Nat) : DependsOn (basisState (R := R) Q v) Q := fun a b hab => by
  unfold basisState
  refine if_congr ?_ rfl rfl
  exact ⟨fun h q hq => by rw [← hab q hq]; exact h q hq, fun h q hq => by rw [hab q hq]; exact h q hq⟩

theorem pair_basis {Q : List Int} (hQ : Q.Nodup) {v : Int → Nat} (hv : ∀ q ∈ Q, v q < 2) {X : (Int → Nat) → R}
    (hX : DependsOn X Q) (a : Int → Nat) : sumOver bits Q (fun w => basisState Q v w * X w) a = X v := by
  have : (fun w => basisState Q v w * X w) = fun w => if Q.map w = Q.map v then X w else 0 := by
    funext w
    unfold basisState
    rw [ite_mul, one_mul, zero_mul]
    exact if_congr List.map_inj_left.symm rfl rfl
  rw [this, sumOver_pin (fun q hq => by simpa [bits] using hv q hq) hQ]
  exact hX _ _ fun q hq => by simp [hq]

/-- The amplitudes of the transposed operations in reverse order. -/
theorem evolve_transpose {l l' : List (Act R)} (ht : List.Forall₂ Act.Transposes l'.reverse l) {Q Q' : List Int}
    (hf : Flows Q l) (hQ' : Q'.Nodup) (hp : ∀ q, q ∈ Q' ↔ q ∈ afterAll Q l) {u v : Int → Nat} (hu : ∀ q ∈ Q', u q < 2)
    (hv : ∀ q ∈ Q, v q < 2) :
    evolve l' (basisState Q' u) v = evolve l (basisState Q v) u := by
  have hn := hf.after_nodup
  have hd : DependsOn (basisState (R := R) Q' u) (afterAll Q l) := fun a b hab =>
    basisState_dependsOn Q' u a b fun q hq => hab q ((hp q).1 hq)
  obtain ⟨h1, h2⟩ := pair_evolve ht hf hd (basisState_dependsOn Q v) (fun _ => 0)
  rw [sumOver_perm (((List.perm_ext_iff_of_nodup hQ' hn).2 hp).symm),
    pair_basis hQ' hu (fun a b hab => evolve_dependsOn (basisState_dependsOn Q v) a b fun q hq => hab q ((hp q).2 hq))] at h1
  rw [h1]
  have : (fun x => evolve l' (basisState Q' u) x * basisState Q v x) = fun x => basisState Q v x * evolve l' (basisState Q' u) x := by
    funext x; exact mul_comm _ _
  rw [this, pair_basis hf.nodup hv h2]

end Verif
