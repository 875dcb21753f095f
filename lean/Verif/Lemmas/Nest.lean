import Verif.Spec.Leaves
import Verif.Lemmas.DensEvolve
import Mathlib.Logic.Equiv.Basic
/-!
# Sequences of operations: sums, factors, renaming of the qubits
-/

set_option linter.unusedSectionVars false

namespace Verif

variable {R : Type} [CommSemiring R]

/-- All values are basis values. -/
def Good (u : Int → Nat) : Prop := ∀ q, u q < 2

theorem Good.reach {u v : Int → Nat} {l : List Int} (h : Good u) (hr : Reach bits l u v) : Good v := fun q => by
  by_cases hq : q ∈ l
  · exact Finset.mem_range.1 (hr.2 q hq)
  · rw [hr.1 q hq]; exact h q

theorem Act.Same.refl (p : Act R) : p.Same p := ⟨rfl, rfl, fun _ _ => rfl⟩

theorem evolve_good {l : List (Act R)} {Ψ Ψ' : (Int → Nat) → R} (h : ∀ w, Good w → Ψ w = Ψ' w) {u : Int → Nat} (hu : Good u) :
    evolve l Ψ u = evolve l Ψ' u :=
  evolve_same (List.forall₂_same.2 fun p _ => Act.Same.refl p) h hu

/-- Superpositions evolve as superpositions. -/
theorem evolve_sum (l : List (Act R)) (Q : List Int) (F : (Int → Nat) → (Int → Nat) → R) (a u : Int → Nat) :
    evolve l (fun w => sumOver bits Q (fun x => F x w) a) u = sumOver bits Q (fun x => evolve l (F x) u) a := by
  induction l generalizing F with
  | nil => rfl
  | cons p l ih =>
    rw [evolve]
    have : p.apply (fun w => sumOver bits Q (fun x => F x w) a) = fun w => sumOver bits Q (fun x => p.apply (F x) w) a := by
      funext w
      unfold Act.apply
      rw [← sumOver_comm]
      refine sumOver_congr fun y => ?_
      rw [sumOver_const_mul]
    rw [this, ih]
    rfl

/-- A factor that does not depend on the inputs of the operations stays a factor. -/
theorem evolve_mul (l : List (Act R)) {g : (Int → Nat) → R} (hg : ∀ p ∈ l, Indep g p.ins) (Ψ : (Int → Nat) → R) (u : Int → Nat) :
    evolve l (fun w => Ψ w * g w) u = evolve l Ψ u * g u := by
  induction l generalizing Ψ with
  | nil => rfl
  | cons p l ih =>
    rw [evolve, evolve]
    have : p.apply (fun w => Ψ w * g w) = fun w => p.apply Ψ w * g w := by
      funext w
      unfold Act.apply
      rw [← sumOver_mul_right_indep (hg p (by simp))]
      exact sumOver_congr fun y => (mul_assoc _ _ _).symm
    rw [this, ih fun p hp => hg p (by simp [hp])]

/-- The assignment `x` at the qubits `Q`, `w` elsewhere. -/
def over (Q : List Int) (x w : Int → Nat) : Int → Nat := fun q => if q ∈ Q then x q else w q

/-- A state as a superposition of basis states. -/
theorem expand_basis {Q : List Int} (hQ : Q.Nodup) (Ψ : (Int → Nat) → R) {w : Int → Nat} (hw : Good w) (a : Int → Nat) :
    Ψ w = sumOver bits Q (fun x => basisState Q x w * Ψ (over Q x w)) a := by
  have hd : DependsOn (fun x => Ψ (over Q x w)) Q := fun x y h => by
    have : over Q x w = over Q y w := by
      funext q
      unfold over
      by_cases hq : q ∈ Q
      · rw [if_pos hq, if_pos hq, h q hq]
      · rw [if_neg hq, if_neg hq]
    show Ψ _ = Ψ _
    rw [this]
  have := pair_basis hQ (v := w) (fun q _ => hw q) hd a
  rw [show Ψ w = Ψ (over Q w w) by congr 1; funext q; unfold over; split <;> rfl, ← this]
  refine sumOver_congr fun x => ?_
  show _ * _ = _ * _
  congr 1
  unfold basisState
  exact if_congr ⟨fun h q hq => (h q hq).symm, fun h q hq => (h q hq).symm⟩ rfl rfl

/-- An operation with the entries of a sequence of operations acts as the sequence, on states that do not depend on the
further qubits the sequence takes in. -/
theorem apply_sequence {p : Act R} {S : List (Act R)} (hn : p.ins.Nodup)
    (hT : ∀ x w, Good x → Good w → p.ten (p.outs.map w ++ p.ins.map x) = evolve S (basisState p.ins x) w)
    {Ψ : (Int → Nat) → R} (hΨ : ∀ s ∈ S, ∀ q ∈ s.ins, q ∉ p.ins → Indep Ψ [q]) {u : Int → Nat} (hu : Good u) :
    p.apply Ψ u = evolve S Ψ u := by
  have h1 : evolve S Ψ u = evolve S (fun w => sumOver bits p.ins (fun x => basisState p.ins x w * Ψ (over p.ins x w)) u) u :=
    evolve_good (fun w hw => expand_basis hn Ψ hw u) hu
  rw [h1, evolve_sum]
  refine sumOver_congr_reach fun x hx => ?_
  have hx' : Good x := hu.reach hx
  have e : over p.ins x u = x := by
    funext q
    unfold over
    by_cases hq : q ∈ p.ins
    · rw [if_pos hq]
    · rw [if_neg hq, hx.1 q hq]
  rw [evolve_mul S (g := fun w => Ψ (over p.ins x w)) ?_, e, hT x u hx' hu]
  intro s hs a b hab
  have key : ∀ l : List Int, (∀ q ∈ l, q ∉ p.ins → Indep Ψ [q]) → ∀ a b : Int → Nat, (∀ q, q ∉ l → q ∉ p.ins → a q = b q) →
      (∀ q ∈ p.ins, a q = b q) → Ψ a = Ψ b := by
    intro l
    induction l with
    | nil => exact fun _ a b h1 h2 => congrArg Ψ (funext fun q => if hq : q ∈ p.ins then h2 q hq else h1 q (by simp) hq)
    | cons q l ih =>
      intro h a b h1 h2
      by_cases hq : q ∈ p.ins
      · refine ih (fun q hq => h q (by simp [hq])) a b (fun q' hq' hi => h1 q' (fun hc => ?_) hi) h2
        rcases List.mem_cons.1 hc with rfl | hc
        · exact hi hq
        · exact hq' hc
      · rw [h q (by simp) hq a (Function.update a q (b q)) fun e he => by
          rw [Function.update_of_ne (by simpa using he)]]
        refine ih (fun q hq => h q (by simp [hq])) _ b (fun q' hq' hi => ?_) fun q' hq' => ?_
        · by_cases he : q' = q
          · subst he; simp
          · rw [Function.update_of_ne he]; exact h1 q' (by simp [he, hq']) hi
        · rw [Function.update_of_ne (by rintro rfl; exact hq hq')]; exact h2 q' hq'
  refine key s.ins (hΨ s hs) _ _ (fun q hq hi => ?_) fun q hq => ?_
  · unfold over
    rw [if_neg hi, if_neg hi]; exact hab q hq
  · unfold over
    rw [if_pos hq, if_pos hq]

/-! ### Renaming the qubits -/

/-- The operation on renamed qubits. -/
def Act.rename (π : Int → Int) (p : Act R) : Act R := ⟨p.ten, p.ins.map π, p.outs.map π⟩

theorem rename_apply {π : Int → Int} (hπ : Function.Injective π) (p : Act R) (Ψ : (Int → Nat) → R) :
    (p.rename π).apply (fun w => Ψ (w ∘ π)) = fun w => p.apply Ψ (w ∘ π) := by
  funext w
  unfold Act.apply Act.rename
  have := sumOver_map π hπ bits p.ins (fun x => p.ten (p.outs.map (w ∘ π) ++ p.ins.map x) * Ψ x) w
  simp only [List.map_map]
  exact this

theorem rename_evolve {π : Int → Int} (hπ : Function.Injective π) (l : List (Act R)) (Ψ : (Int → Nat) → R) :
    evolve (l.map (Act.rename π)) (fun w => Ψ (w ∘ π)) = fun w => evolve l Ψ (w ∘ π) := by
  induction l generalizing Ψ with
  | nil => rfl
  | cons p l ih => rw [List.map_cons, evolve, rename_apply hπ, ih]; rfl

theorem rename_basis (π : Int → Int) (Q : List Int) (v : Int → Nat) :
    (basisState (Q.map π) v : (Int → Nat) → R) = fun w => basisState Q (v ∘ π) (w ∘ π) := by
  funext w
  unfold basisState
  refine if_congr ?_ rfl rfl
  simp

theorem rename_applyDens {π : Int → Int} (hπ : Function.Injective π) (p : Act R) (ρ : (Int → Nat) → (Int → Nat) → R) :
    (p.rename π).applyDens (fun w w' => ρ (w ∘ π) (w' ∘ π)) = fun w w' => p.applyDens ρ (w ∘ π) (w' ∘ π) := by
  funext w w'
  unfold Act.applyDens Act.rename
  simp only [List.map_map]
  have h1 := sumOver_map π hπ bits p.ins (fun x => sumOver bits p.ins (fun x' =>
    p.ten (p.outs.map (w ∘ π) ++ p.ins.map x ++ p.outs.map (w' ∘ π) ++ p.ins.map x') * ρ x x') (w' ∘ π)) w
  refine Eq.trans (sumOver_congr fun x => ?_) h1
  exact sumOver_map π hπ bits p.ins (fun x' => p.ten (p.outs.map (w ∘ π) ++ p.ins.map (x ∘ π) ++ p.outs.map (w' ∘ π) ++
    p.ins.map x') * ρ (x ∘ π) x') w'

theorem rename_evolveDens {π : Int → Int} (hπ : Function.Injective π) (l : List (Act R)) (ρ : (Int → Nat) → (Int → Nat) → R) :
    evolveDens (l.map (Act.rename π)) (fun w w' => ρ (w ∘ π) (w' ∘ π)) = fun w w' => evolveDens l ρ (w ∘ π) (w' ∘ π) := by
  induction l generalizing ρ with
  | nil => rfl
  | cons p l ih => rw [List.map_cons, evolveDens, rename_applyDens hπ, ih]; rfl

theorem rename_basisDens (π : Int → Int) (Q : List Int) (v v' : Int → Nat) :
    (basisDens (Q.map π) v v' : (Int → Nat) → (Int → Nat) → R) = fun w w' => basisDens Q (v ∘ π) (v' ∘ π) (w ∘ π) (w' ∘ π) := by
  funext w w'
  unfold basisDens
  refine if_congr ?_ rfl rfl
  simp

/-- A renaming with given values extends to one of all qubits. -/
theorem exists_renaming : ∀ {as bs : List Int}, as.Nodup → bs.Nodup → as.length = bs.length →
    ∃ π : Int → Int, Function.Injective π ∧ as.map π = bs
  | [], [], _, _, _ => ⟨id, Function.injective_id, rfl⟩
  | a :: as, b :: bs, ha, hb, hl => by
    obtain ⟨ha1, ha2⟩ := List.nodup_cons.1 ha
    obtain ⟨hb1, hb2⟩ := List.nodup_cons.1 hb
    obtain ⟨π, h1, h2⟩ := exists_renaming ha2 hb2 (by simpa using hl)
    refine ⟨fun q => Equiv.swap (π a) b (π q), (Equiv.swap (π a) b).injective.comp h1, ?_⟩
    rw [List.map_cons, Equiv.swap_apply_left]
    congr 1
    conv_rhs => rw [← h2]
    refine List.map_congr_left fun q hq => ?_
    refine Equiv.swap_apply_of_ne_of_ne (fun e => ha1 (h1 e ▸ hq)) fun e => hb1 ?_
    rw [← e, ← h2]
    exact List.mem_map.2 ⟨q, hq, rfl⟩

theorem attach_eq {as : List Int} {π : Int → Int} {q : Int} (hq : q ∈ as) : attach as (as.map π) q = π q := by
  unfold attach
  rw [List.getElem?_map, List.getElem?_idxOf hq]
  rfl

end Verif
