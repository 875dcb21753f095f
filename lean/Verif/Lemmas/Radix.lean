import Verif.Base.Sum
import Mathlib.Algebra.BigOperators.Group.Finset.Sigma
/-! # Helper lemmas: mixed-radix enumeration of assignments -/

namespace Verif

variable {E : Type} [DecidableEq E] {R : Type} [CommSemiring R]

theorem sum_range_mul' {M : Type} [AddCommMonoid M] (n m : Nat) (g : Nat → Nat → M) :
    ∑ k ∈ Finset.range (n * m), g (k % n) (k / n) = ∑ i ∈ Finset.range n, ∑ j ∈ Finset.range m, g i j := by
  rw [← Finset.sum_product']
  rcases Nat.eq_zero_or_pos n with rfl | hn
  · simp
  refine Finset.sum_nbij' (fun k => (k % n, k / n)) (fun p => p.1 + n * p.2) ?_ ?_ ?_ ?_ ?_
  · intro k hk
    rw [Finset.mem_range] at hk
    rw [Finset.mem_product, Finset.mem_range, Finset.mem_range]
    exact ⟨Nat.mod_lt _ hn, Nat.div_lt_of_lt_mul hk⟩
  · rintro ⟨i, j⟩ hp
    rw [Finset.mem_product, Finset.mem_range, Finset.mem_range] at hp
    rw [Finset.mem_range]
    calc i + n * j < n + n * j := by have := hp.1; dsimp only at this; omega
      _ = n * (j + 1) := by rw [Nat.mul_succ, Nat.add_comm]
      _ ≤ n * m := Nat.mul_le_mul_left _ hp.2
  · intro k _
    exact Nat.mod_add_div k n
  · rintro ⟨i, j⟩ hp
    rw [Finset.mem_product, Finset.mem_range, Finset.mem_range] at hp
    simp only [Prod.mk.injEq]
    refine ⟨?_, ?_⟩
    · rw [Nat.add_mul_mod_self_left]; exact Nat.mod_eq_of_lt hp.1
    · rw [Nat.add_mul_div_left _ _ hn, Nat.div_eq_of_lt hp.1, Nat.zero_add]
  · intro k _; rfl

/-- The assignment selected by number `k` (least significant digit first). -/
def assign : List (E × List Nat) → Nat → (E → Nat) → (E → Nat)
  | [], _, a => a
  | (e, vals) :: ls, k, a => assign ls (k / vals.length) (Function.update a e (vals.getD (k % vals.length) 0))

theorem sum_values {M : Type} [AddCommMonoid M] {vals : List Nat} (hn : vals.Nodup) (h : Nat → M) :
    ∑ i ∈ Finset.range vals.length, h (vals.getD i 0) = ∑ x ∈ vals.toFinset, h x := by
  rw [List.sum_toFinset _ hn]
  clear hn
  induction vals with
  | nil => simp
  | cons v vs ih =>
    rw [List.length_cons, Finset.sum_range_succ', List.map_cons, List.sum_cons, ← ih, add_comm]
    rfl

/-- Running through all numbers runs through all assignments. -/
theorem sum_assign {dom : E → Finset Nat} {ls : List (E × List Nat)}
    (h : ∀ p ∈ ls, p.2.Nodup ∧ dom p.1 = p.2.toFinset) (F : (E → Nat) → R) (a : E → Nat) :
    ∑ k ∈ Finset.range (ls.map fun p => p.2.length).prod, F (assign ls k a) = sumOver dom (ls.map Prod.fst) F a := by
  induction ls generalizing a with
  | nil => simp [assign]
  | cons p ls ih =>
    obtain ⟨e, vals⟩ := p
    obtain ⟨hn, hd⟩ := h _ List.mem_cons_self
    rw [List.map_cons, List.prod_cons, List.map_cons, sumOver_cons, hd]
    show ∑ k ∈ Finset.range (vals.length * _),
      F (assign ls (k / vals.length) (Function.update a e (vals.getD (k % vals.length) 0))) = _
    rw [sum_range_mul' vals.length _ fun i j => F (assign ls j (Function.update a e (vals.getD i 0)))]
    rw [← sum_values hn fun x => sumOver dom (ls.map Prod.fst) F (Function.update a e x)]
    exact Finset.sum_congr rfl fun i _ => ih (fun p hp => h p (by simp [hp])) _

theorem sum_range_list {M : Type} [AddCommMonoid M] (n : Nat) (g : Nat → M) :
    ((List.range n).map g).sum = ∑ k ∈ Finset.range n, g k := rfl

end Verif
