import Mathlib.Algebra.BigOperators.Ring.Finset
import Mathlib.Algebra.BigOperators.Group.Finset.Sigma
import Mathlib.Algebra.BigOperators.Group.List.Basic
import Mathlib.Data.List.Perm.Basic
import Mathlib.Data.Fintype.Pi
/-!
# Iterated sums over assignments

An *assignment* gives every edge a value (`E → Nat`).  `sumOver dom es f a` sums `f` over all
assignments that agree with `a` outside the list `es` and give each `e ∈ es` a value in `dom e`.
This file is pure mathematics: nothing in it comes from the acqdp sources.
-/

set_option linter.unusedSectionVars false

namespace Verif

open Finset

variable {E : Type} [DecidableEq E] {R : Type} [CommSemiring R]

/-- Sum of `f` over all re-assignments of the edges in the list. -/
def sumOver (dom : E → Finset Nat) : List E → ((E → Nat) → R) → (E → Nat) → R
  | [], f, a => f a
  | e :: es, f, a => ∑ x ∈ dom e, sumOver dom es f (Function.update a e x)

@[simp] theorem sumOver_nil (dom : E → Finset Nat) (f : (E → Nat) → R) (a : E → Nat) :
    sumOver dom [] f a = f a := rfl

theorem sumOver_cons (dom : E → Finset Nat) (e : E) (es : List E) (f : (E → Nat) → R) (a : E → Nat) :
    sumOver dom (e :: es) f a = ∑ x ∈ dom e, sumOver dom es f (Function.update a e x) := rfl

theorem sumOver_append (dom : E → Finset Nat) (l₁ l₂ : List E) (f : (E → Nat) → R) (a : E → Nat) :
    sumOver dom (l₁ ++ l₂) f a = sumOver dom l₁ (fun b => sumOver dom l₂ f b) a := by
  induction l₁ generalizing a with
  | nil => rfl
  | cons e es ih => simp only [List.cons_append, sumOver_cons, ih]

/-- Assignments reachable in a sum: equal to `a` outside `l`, inside the domains on `l`. -/
def Reach (dom : E → Finset Nat) (l : List E) (a b : E → Nat) : Prop :=
  (∀ e, e ∉ l → b e = a e) ∧ (∀ e, e ∈ l → b e ∈ dom e)

theorem Reach.cons {dom : E → Finset Nat} {e : E} {es : List E} {a b : E → Nat} {x : Nat}
    (hx : x ∈ dom e) (h : Reach dom es (Function.update a e x) b) : Reach dom (e :: es) a b := by
  refine ⟨fun e' he' => ?_, fun e' he' => ?_⟩
  · simp only [List.mem_cons, not_or] at he'
    rw [h.1 e' he'.2, Function.update_of_ne he'.1]
  · by_cases hmem : e' ∈ es
    · exact h.2 e' hmem
    · have : e' = e := by simpa [hmem] using he'
      subst this
      rw [h.1 e' hmem, Function.update_self]; exact hx

theorem sumOver_congr_reach {dom : E → Finset Nat} {l : List E} {f g : (E → Nat) → R} {a : E → Nat}
    (h : ∀ b, Reach dom l a b → f b = g b) : sumOver dom l f a = sumOver dom l g a := by
  induction l generalizing a with
  | nil => exact h a ⟨fun _ _ => rfl, fun _ he => by simp at he⟩
  | cons e es ih =>
    simp only [sumOver_cons]
    exact Finset.sum_congr rfl fun x hx => ih fun b hb => h b (Reach.cons hx hb)

theorem sumOver_congr {dom : E → Finset Nat} {l : List E} {f g : (E → Nat) → R} {a : E → Nat}
    (h : ∀ b, f b = g b) : sumOver dom l f a = sumOver dom l g a :=
  sumOver_congr_reach fun b _ => h b

theorem sumOver_dom_congr {dom dom' : E → Finset Nat} {l : List E} {f : (E → Nat) → R} {a : E → Nat}
    (h : ∀ e ∈ l, dom e = dom' e) : sumOver dom l f a = sumOver dom' l f a := by
  induction l generalizing a with
  | nil => rfl
  | cons e es ih =>
    simp only [sumOver_cons]
    rw [h e (by simp)]
    exact Finset.sum_congr rfl fun x _ => ih fun e he => h e (by simp [he])

theorem sumOver_swap (dom : E → Finset Nat) (e e' : E) (l : List E) (f : (E → Nat) → R) (a : E → Nat) :
    sumOver dom (e :: e' :: l) f a = sumOver dom (e' :: e :: l) f a := by
  by_cases h : e = e'
  · subst h; rfl
  · simp only [sumOver_cons]
    rw [Finset.sum_comm]
    refine Finset.sum_congr rfl fun x _ => Finset.sum_congr rfl fun y _ => ?_
    rw [Function.update_comm h]

theorem sumOver_perm {dom : E → Finset Nat} {l l' : List E} (h : l.Perm l') (f : (E → Nat) → R)
    (a : E → Nat) : sumOver dom l f a = sumOver dom l' f a := by
  induction h generalizing a with
  | nil => rfl
  | cons e _ ih => simp only [sumOver_cons, ih]
  | swap e e' l => exact sumOver_swap dom e' e l f a
  | trans _ _ ih1 ih2 => rw [ih1, ih2]

/-- `f` does not look at the edges in `l`. -/
def Indep {α : Type} (f : (E → Nat) → α) (l : List E) : Prop :=
  ∀ a b : E → Nat, (∀ e, e ∉ l → a e = b e) → f a = f b

/-- `f` only looks at the edges in `l`. -/
def DependsOn {α : Type} (f : (E → Nat) → α) (l : List E) : Prop :=
  ∀ a b : E → Nat, (∀ e, e ∈ l → a e = b e) → f a = f b

theorem DependsOn.indep {α : Type} {f : (E → Nat) → α} {l l' : List E} (h : DependsOn f l)
    (hd : ∀ e ∈ l, e ∉ l') : Indep f l' :=
  fun a b hab => h a b fun e he => hab e (hd e he)

theorem sumOver_mul_left {dom : E → Finset Nat} {l : List E} {g f : (E → Nat) → R} {a : E → Nat}
    (hg : ∀ b, Reach dom l a b → g b = g a) :
    sumOver dom l (fun b => g b * f b) a = g a * sumOver dom l f a := by
  have h1 : sumOver dom l (fun b => g b * f b) a = sumOver dom l (fun b => g a * f b) a :=
    sumOver_congr_reach fun b hb => by rw [hg b hb]
  rw [h1]
  generalize g a = c
  clear h1 hg g
  induction l generalizing a with
  | nil => rfl
  | cons e es ih => simp only [sumOver_cons, ih, Finset.mul_sum]

theorem sumOver_mul_left_indep {dom : E → Finset Nat} {l : List E} {g f : (E → Nat) → R}
    {a : E → Nat} (hg : Indep g l) :
    sumOver dom l (fun b => g b * f b) a = g a * sumOver dom l f a :=
  sumOver_mul_left fun b hb => hg b a hb.1

theorem sumOver_mul_right_indep {dom : E → Finset Nat} {l : List E} {g f : (E → Nat) → R}
    {a : E → Nat} (hg : Indep g l) :
    sumOver dom l (fun b => f b * g b) a = sumOver dom l f a * g a := by
  have := sumOver_mul_left_indep (dom := dom) (f := f) (a := a) hg
  rw [mul_comm, ← this]
  exact sumOver_congr fun b => mul_comm _ _

theorem sumOver_const_mul (dom : E → Finset Nat) (l : List E) (c : R) (f : (E → Nat) → R)
    (a : E → Nat) : sumOver dom l (fun b => c * f b) a = c * sumOver dom l f a :=
  sumOver_mul_left_indep (g := fun _ => c) fun _ _ _ => rfl

theorem sumOver_zero (dom : E → Finset Nat) (l : List E) (a : E → Nat) :
    sumOver dom l (fun _ => (0 : R)) a = 0 := by
  induction l generalizing a with
  | nil => rfl
  | cons e es ih => simp [sumOver_cons, ih]

theorem sumOver_add (dom : E → Finset Nat) (l : List E) (f g : (E → Nat) → R) (a : E → Nat) :
    sumOver dom l (fun b => f b + g b) a = sumOver dom l f a + sumOver dom l g a := by
  induction l generalizing a with
  | nil => rfl
  | cons e es ih => simp only [sumOver_cons, ih, Finset.sum_add_distrib]

theorem sumOver_sum {ι : Type} (dom : E → Finset Nat) (l : List E) (s : Finset ι)
    (f : ι → (E → Nat) → R) (a : E → Nat) :
    sumOver dom l (fun b => ∑ i ∈ s, f i b) a = ∑ i ∈ s, sumOver dom l (f i) a := by
  induction l generalizing a with
  | nil => rfl
  | cons e es ih => simp only [sumOver_cons, ih]; rw [Finset.sum_comm]

theorem sumOver_list_sum {ι : Type} (dom : E → Finset Nat) (l : List E) (s : List ι)
    (f : ι → (E → Nat) → R) (a : E → Nat) :
    sumOver dom l (fun b => (s.map fun i => f i b).sum) a = (s.map fun i => sumOver dom l (f i) a).sum := by
  induction s with
  | nil => simp [sumOver_zero]
  | cons i s ih => simp only [List.map_cons, List.sum_cons, sumOver_add, ih]

/-- The base assignment matters only outside the summed edges. -/
theorem sumOver_base_congr {dom : E → Finset Nat} {l : List E} {f : (E → Nat) → R} {a b : E → Nat}
    (h : ∀ e, e ∉ l → a e = b e) : sumOver dom l f a = sumOver dom l f b := by
  induction l generalizing a b with
  | nil =>
    have : a = b := funext fun e => h e (by simp)
    rw [this]
  | cons e es ih =>
    simp only [sumOver_cons]
    refine Finset.sum_congr rfl fun x _ => ih fun e' he' => ?_
    by_cases hee : e' = e
    · subst hee; simp
    · simp only [Function.update_of_ne hee]
      exact h e' (by simp [hee, he'])

theorem indep_nil {α : Type} (f : (E → Nat) → α) : Indep f [] :=
  fun a b h => by rw [show a = b from funext fun e => h e (by simp)]

/-- If `f` only looks at `l`, the base assignment is irrelevant off `l` and on the summed edges. -/
theorem sumOver_base_dep {dom : E → Finset Nat} {l l' : List E} {f : (E → Nat) → R} {a b : E → Nat}
    (hf : DependsOn f l') (h : ∀ e, e ∈ l' → e ∉ l → a e = b e) :
    sumOver dom l f a = sumOver dom l f b := by
  induction l generalizing a b with
  | nil => exact hf a b fun e he => h e he (by simp)
  | cons e es ih =>
    simp only [sumOver_cons]
    refine Finset.sum_congr rfl fun x _ => ih fun e' he1 he2 => ?_
    by_cases hee : e' = e
    · subst hee; simp
    · simp only [Function.update_of_ne hee]
      exact h e' he1 (by simp [hee, he2])

theorem sumOver_dependsOn {dom : E → Finset Nat} {l l' : List E} {f : (E → Nat) → R}
    (hf : DependsOn f l') : DependsOn (fun a => sumOver dom l f a) l' :=
  fun _ _ h => sumOver_base_dep hf fun e he _ => h e he

theorem sumOver_indep {dom : E → Finset Nat} {l l' : List E} {f : (E → Nat) → R}
    (hf : Indep f l') : Indep (fun a => sumOver dom l f a) (l ++ l') := by
  intro a b h
  induction l generalizing a b with
  | nil => exact hf a b (by simpa using h)
  | cons e es ih =>
    simp only [sumOver_cons]
    refine Finset.sum_congr rfl fun x _ => ih _ _ fun e' he' => ?_
    by_cases hee : e' = e
    · subst hee; simp
    · simp only [Function.update_of_ne hee]
      exact h e' (by simp only [List.mem_append, not_or] at he'; simp [hee, he'])

/-- Renaming of summation variables along an injective map. -/
theorem sumOver_map {E' : Type} [DecidableEq E'] (ρ : E' → E) (hρ : Function.Injective ρ)
    (dom : E → Finset Nat) (l : List E') (f : (E' → Nat) → R) (a : E → Nat) :
    sumOver dom (l.map ρ) (fun b => f (b ∘ ρ)) a = sumOver (dom ∘ ρ) l f (a ∘ ρ) := by
  induction l generalizing a with
  | nil => rfl
  | cons e es ih =>
    simp only [List.map_cons, sumOver_cons, ih, Function.comp]
    refine Finset.sum_congr rfl fun x _ => ?_
    congr 1
    funext e'
    by_cases h : e' = e
    · subst h; simp
    · show Function.update a (ρ e) x (ρ e') = _
      rw [Function.update_of_ne (fun hc => h (hρ hc)), Function.update_of_ne h]; rfl

end Verif
