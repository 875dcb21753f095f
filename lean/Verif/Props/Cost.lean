import Verif.Model.Cost
import Mathlib.Tactic.Ring
import Mathlib.Algebra.BigOperators.Group.List.Basic
import Mathlib.Data.List.MinMax
/-!
# C30: cost algebra
-/

namespace Verif

/-- C30: addition is commutative. -/
theorem c30_add_comm (a b : Cost) : a.add b = b.add a := by
  simp [Cost.add, Nat.add_comm, Nat.max_comm]

/-- C30: addition is associative. -/
theorem c30_add_assoc (a b c : Cost) : (a.add b).add c = a.add (b.add c) := by
  simp [Cost.add, Nat.add_assoc, Nat.max_assoc]

/-- C30 (partial): `ContractionCost()` is an identity of `+` for costs without sliced indices.
Missing: costs with `k ≠ 0`, for which `+` forgets the slice count (`c30_identity_violated`). -/
theorem c30_add_zero_partial (a : Cost) (h : a.k = 0) :
    a.add Cost.zero = a ∧ Cost.zero.add a = a := by
  constructor <;> ext <;> simp [Cost.add, Cost.zero, h]

example : (⟨12, 4, 0⟩ : Cost).k = 0 := rfl

/-- C30 violated: adding zero to a cost with a sliced index changes it (its total flops halve). -/
theorem c30_identity_violated : ∃ a : Cost, (a.add Cost.zero).eq a = false ∧
    (a.add Cost.zero).lt a = true := ⟨⟨5, 4, 1⟩, by decide⟩

private theorem foldl_iadd (cs : List Cost) (c : Cost) :
    cs.foldl Cost.iadd c = ⟨c.s + (cs.map Cost.s).sum, max c.t (cs.foldr (fun x m => max x.t m) 0), c.k⟩ := by
  induction cs generalizing c with
  | nil => simp
  | cons x xs ih =>
    rw [List.foldl_cons, ih]
    simp [Cost.iadd, Nat.add_assoc, Nat.max_assoc]

/-- C30: accumulating the costs of all steps gives the total number of flops, and a width that is an
upper bound of all step widths and (if there is a step) is attained by a step. -/
theorem c30_accumulate (cs : List Cost) :
    (Cost.accumulate cs).s = (cs.map Cost.s).sum ∧
    (∀ c ∈ cs, c.t ≤ (Cost.accumulate cs).t) ∧
    (cs ≠ [] → ∃ c ∈ cs, (Cost.accumulate cs).t = c.t) ∧
    (Cost.accumulate cs).k = 0 := by
  have h := foldl_iadd cs Cost.zero
  have ht : (Cost.accumulate cs).t = cs.foldr (fun x m => max x.t m) 0 := by
    rw [Cost.accumulate, h]; simp [Cost.zero]
  refine ⟨?_, ?_, ?_, ?_⟩
  · rw [Cost.accumulate, h]; simp [Cost.zero]
  · rw [ht]
    clear h ht
    induction cs with
    | nil => simp
    | cons x xs ih =>
      intro c hc
      rcases List.mem_cons.1 hc with rfl | hc
      · exact Nat.le_max_left _ _
      · exact Nat.le_trans (ih c hc) (Nat.le_max_right _ _)
  · rw [ht]
    clear h ht
    induction cs with
    | nil => simp
    | cons x xs ih =>
      intro _
      by_cases hx : xs = []
      · subst hx; exact ⟨x, by simp, by simp⟩
      · obtain ⟨c, hc, he⟩ := ih hx
        simp only [List.foldr_cons]
        rw [he]
        rcases Nat.le_total x.t c.t with h1 | h1
        · exact ⟨c, List.mem_cons_of_mem _ hc, Nat.max_eq_right h1⟩
        · exact ⟨x, List.mem_cons_self, Nat.max_eq_left h1⟩
  · rw [Cost.accumulate, h]; rfl

/-- C30: the accumulated cost does not depend on grouping or order of the steps. -/
theorem c30_accumulate_perm {cs ds : List Cost} (h : cs.Perm ds) :
    Cost.accumulate cs = Cost.accumulate ds := by
  unfold Cost.accumulate
  refine h.foldl_eq' (fun x _ y _ z => ?_) _
  ext
  · simp [Cost.iadd, Nat.add_right_comm]
  · simp [Cost.iadd, Nat.max_comm x.t y.t]
  · rfl

example : [(⟨3, 2, 0⟩ : Cost), ⟨5, 8, 0⟩].Perm [⟨5, 8, 0⟩, ⟨3, 2, 0⟩] := by decide

/-- C30: grouping the steps in two blocks and adding the block totals gives the overall total. -/
theorem c30_accumulate_append (cs ds : List Cost) :
    Cost.accumulate (cs ++ ds) = (Cost.accumulate cs).add (Cost.accumulate ds) := by
  unfold Cost.accumulate
  rw [List.foldl_append, foldl_iadd ds, foldl_iadd ds Cost.zero, foldl_iadd cs]
  simp [Cost.add, Cost.zero]

/-- C30: `==` is an equivalence, `<` is a strict order whose incomparability is transitive, `<`
respects `==`, and `a < b`, `a == b`, `b < a` exclude each other. -/
theorem c30_order_consistent (a b c : Cost) :
    a.eq a = true ∧ (a.eq b = b.eq a) ∧ (a.eq b = true → b.eq c = true → a.eq c = true) ∧
    a.lt a = false ∧ (a.lt b = true → b.lt c = true → a.lt c = true) ∧
    (a.lt b = true → b.lt a = false ∧ a.eq b = false) ∧
    (a.eq b = true → a.lt b = false ∧ b.lt a = false ∧ a.lt c = b.lt c ∧ c.lt a = c.lt b) ∧
    (a.lt c = true → a.lt b = true ∨ b.lt c = true) := by
  refine ⟨by simp [Cost.eq], ?_, ?_, by simp [Cost.lt], ?_, ?_, ?_, ?_⟩
  · simp [Cost.eq, Bool.beq_comm]
  · simp only [Cost.eq, Bool.and_eq_true, beq_iff_eq]
    rintro ⟨h1, h2⟩ ⟨h3, h4⟩
    exact ⟨h1.trans h3, h2.trans h4⟩
  · simp only [Cost.lt, decide_eq_true_eq]; omega
  · simp only [Cost.lt, Cost.eq, decide_eq_true_eq, decide_eq_false_iff_not, Bool.and_eq_false_iff,
      beq_eq_false_iff_ne]
    omega
  · simp only [Cost.lt, Cost.eq, decide_eq_false_iff_not, Bool.and_eq_true,
      beq_iff_eq]
    rintro ⟨h1, _⟩
    simp only [h1, Nat.lt_irrefl, not_false_eq_true, and_self]
  · simp only [Cost.lt, decide_eq_true_eq]; omega

/-- C30 (partial): exactly one of `<`, `==`, `>` holds for costs of equal width.
Missing: costs of different width and equal flops (`c30_trichotomy_violated`). -/
theorem c30_trichotomy_partial (a b : Cost) (h : a.t = b.t) :
    (a.lt b = true ∧ a.eq b = false ∧ b.lt a = false) ∨
    (a.lt b = false ∧ a.eq b = true ∧ b.lt a = false) ∨
    (a.lt b = false ∧ a.eq b = false ∧ b.lt a = true) := by
  simp only [Cost.lt, Cost.eq, decide_eq_true_eq, decide_eq_false_iff_not, Bool.and_eq_true,
      beq_iff_eq, Bool.and_eq_false_iff, beq_eq_false_iff_ne, h]
  rcases Nat.lt_trichotomy (a.s * 2 ^ a.k) (b.s * 2 ^ b.k) with h1 | h1 | h1
  · exact Or.inl ⟨h1, Or.inl (Nat.ne_of_lt h1), Nat.not_lt.2 (Nat.le_of_lt h1)⟩
  · refine Or.inr (Or.inl ?_); simp [h1]
  · exact Or.inr (Or.inr ⟨Nat.not_lt.2 (Nat.le_of_lt h1), Or.inl (Nat.ne_of_gt h1), h1⟩)

example : (⟨3, 7, 1⟩ : Cost).t = (⟨9, 7, 0⟩ : Cost).t := rfl

/-- C30 violated: two costs with equal flops and different width are neither `<`, `==` nor `>`. -/
theorem c30_trichotomy_violated : ∃ a b : Cost, a.lt b = false ∧ a.eq b = false ∧ b.lt a = false :=
  ⟨⟨8, 2, 0⟩, ⟨8, 4, 0⟩, by decide⟩

end Verif
