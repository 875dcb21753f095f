import Verif.Model.Uct
import Mathlib.Data.List.Perm.Lattice
import Mathlib.Data.Finset.Union
/-!
# Trees of `UndirectedContractionTree`: cutting them at an edge
-/

namespace Verif

/-- The part of a contraction tree on one side of an edge. -/
inductive UT
  | leaf (v : Nat)
  | node (v : Nat) (l r : UT)

namespace UT

/-- The vertex at the edge. -/
def top : UT → Nat
  | leaf v => v
  | node v _ _ => v

/-- All vertices. -/
def labels : UT → List Nat
  | leaf v => [v]
  | node v l r => v :: (l.labels ++ r.labels)

/-- The operands. -/
def leaves : UT → List Nat
  | leaf v => [v]
  | node _ l r => l.leaves ++ r.leaves

/-- The contractions. -/
def inner : UT → List Nat
  | leaf _ => []
  | node v l r => v :: (l.inner ++ r.inner)

/-- `T` is what hangs at the vertex `p`. -/
def Shape (n : Nat) (adj : Nat → List Nat) : Nat → UT → Prop
  | p, leaf v => v < n ∧ adj v = [p]
  | p, node v l r => n ≤ v ∧ (adj v).Perm [p, l.top, r.top] ∧ Shape n adj v l ∧ Shape n adj v r

theorem top_mem (T : UT) : T.top ∈ T.labels := by
  cases T <;> simp [top, labels]

theorem Shape.congr {n : Nat} {adj adj' : Nat → List Nat} {p : Nat} {T : UT} (h : Shape n adj p T)
    (he : ∀ x ∈ T.labels, adj' x = adj x) : Shape n adj' p T := by
  induction T generalizing p with
  | leaf v => exact ⟨h.1, by rw [he v (by simp [labels]), h.2]⟩
  | node v l r ihl ihr =>
    refine ⟨h.1, ?_, ihl h.2.2.1 fun x hx => he x (by simp [labels, hx]), ihr h.2.2.2 fun x hx => he x (by simp [labels, hx])⟩
    rw [he v (by simp [labels])]
    exact h.2.1

theorem labels_perm {n : Nat} {adj : Nat → List Nat} {p : Nat} {T : UT} (h : Shape n adj p T) :
    T.labels.Perm (T.leaves ++ T.inner) ∧ (∀ x ∈ T.leaves, x < n) ∧ ∀ x ∈ T.inner, n ≤ x := by
  induction T generalizing p with
  | leaf v => exact ⟨List.Perm.refl _, by simpa [leaves] using h.1, by simp [inner]⟩
  | node v l r ihl ihr =>
    obtain ⟨a1, a2, a3⟩ := ihl h.2.2.1
    obtain ⟨b1, b2, b3⟩ := ihr h.2.2.2
    refine ⟨?_, ?_, ?_⟩
    · rw [labels, leaves, inner]
      refine ((a1.append b1).cons v).trans ?_
      refine List.Perm.trans ?_ List.perm_middle.symm
      refine List.Perm.cons v ?_
      rw [List.append_assoc, List.append_assoc]
      refine List.Perm.append_left _ ?_
      rw [← List.append_assoc, ← List.append_assoc]
      exact List.perm_append_comm.append_right _
    · intro x hx
      rcases List.mem_append.1 hx with hx | hx
      · exact a2 x hx
      · exact b2 x hx
    · intro x hx
      rw [inner, List.mem_cons, List.mem_append] at hx
      rcases hx with rfl | hx | hx
      · exact h.1
      · exact a3 x hx
      · exact b3 x hx

end UT

open UT

/-- The tree is cut at the edge between `u` and `v`. -/
structure Cut (n : Nat) (adj : Nat → List Nat) (u v : Nat) (Tu Tv : UT) : Prop where
  tu : Tu.top = u
  tv : Tv.top = v
  su : Shape n adj v Tu
  sv : Shape n adj u Tv
  perm : (Tu.labels ++ Tv.labels).Perm (List.range (2 * n - 2))

namespace Cut

variable {n : Nat} {adj : Nat → List Nat} {u v : Nat} {Tu Tv : UT}

theorem symm (h : Cut n adj u v Tu Tv) : Cut n adj v u Tv Tu :=
  ⟨h.tv, h.tu, h.sv, h.su, List.perm_append_comm.trans h.perm⟩

theorem nodup (h : Cut n adj u v Tu Tv) : (Tu.labels ++ Tv.labels).Nodup := h.perm.nodup_iff.2 List.nodup_range

theorem mem (h : Cut n adj u v Tu Tv) {x : Nat} : x < 2 * n - 2 ↔ x ∈ Tu.labels ∨ x ∈ Tv.labels := by
  rw [← List.mem_range, ← h.perm.mem_iff, List.mem_append]

theorem swap {A B : UT} (h : Cut n adj u v (.node u A B) Tv) : Cut n adj u v (.node u B A) Tv := by
  refine ⟨rfl, h.tv, ⟨h.su.1, h.su.2.1.trans ?_, h.su.2.2.2, h.su.2.2.1⟩, h.sv, ?_⟩
  · exact List.Perm.cons _ (List.Perm.swap _ _ _)
  · refine List.Perm.trans ?_ h.perm
    refine List.Perm.append_right _ ?_
    rw [labels, labels]
    exact List.Perm.cons _ List.perm_append_comm

/-- The cut is moved to the next edge. -/
theorem step {A B : UT} (h : Cut n adj u v (.node u A B) Tv) : Cut n adj A.top u A (.node u Tv B) := by
  obtain ⟨h1, h2, h3, h4⟩ := h.su
  refine ⟨rfl, rfl, h3, ⟨h1, h2.trans ?_, h.sv, h4⟩, List.Perm.trans ?_ h.perm⟩
  · rw [h.tv]
    exact List.Perm.swap _ _ _
  · rw [labels, labels]
    refine List.perm_middle.trans ?_
    refine List.Perm.cons _ ?_
    show (A.labels ++ (Tv.labels ++ B.labels)).Perm ((A.labels ++ B.labels) ++ Tv.labels)
    rw [List.append_assoc]
    exact List.perm_append_comm.append_left _

theorem find : ∀ {Tu : UT} {u v : Nat} {Tv : UT}, Cut n adj u v Tu Tv → ∀ x ∈ Tu.labels, ∃ p Tx Tp, Cut n adj x p Tx Tp := by
  intro Tu
  induction Tu with
  | leaf w =>
    intro u v Tv h x hx
    have h1 := h.tu
    simp only [labels, List.mem_singleton] at hx
    simp only [top] at h1
    subst h1
    subst hx
    exact ⟨_, _, _, h⟩
  | node w A B ihA ihB =>
    intro u v Tv h x hx
    have h1 := h.tu
    simp only [top] at h1
    subst h1
    rw [labels, List.mem_cons, List.mem_append] at hx
    rcases hx with rfl | hx | hx
    · exact ⟨_, _, _, h⟩
    · exact ihA h.step x hx
    · exact ihB h.swap.step x hx

/-- The tree can be cut at every edge. -/
theorem move (h : Cut n adj u v Tu Tv) {x y : Nat} (hx : x < 2 * n - 2) (hy : y ∈ adj x) : ∃ Tx Ty, Cut n adj x y Tx Ty := by
  obtain ⟨p, Tx, Tp, hc⟩ : ∃ p Tx Tp, Cut n adj x p Tx Tp := by
    rcases h.mem.1 hx with hx | hx
    · exact h.find x hx
    · exact h.symm.find x hx
  have ht := hc.tu
  cases Tx with
  | leaf w =>
    simp only [top] at ht
    subst ht
    rw [hc.su.2, List.mem_singleton] at hy
    subst hy
    exact ⟨_, _, hc⟩
  | node w A B =>
    simp only [top] at ht
    subst ht
    have := hc.su.2.1.subset hy
    simp only [List.mem_cons, List.not_mem_nil, or_false] at this
    rcases this with rfl | rfl | rfl
    · exact ⟨_, _, hc⟩
    · exact ⟨_, _, hc.step.symm⟩
    · exact ⟨_, _, hc.swap.step.symm⟩

theorem adjacent (h : Cut n adj u v Tu Tv) : v ∈ adj u ∧ u ∈ adj v ∧ u < 2 * n - 2 ∧ v < 2 * n - 2 ∧ u ≠ v := by
  have key : ∀ {u v : Nat} {Tu Tv : UT}, Cut n adj u v Tu Tv → v ∈ adj u ∧ u < 2 * n - 2 := by
    intro u v Tu Tv h
    refine ⟨?_, h.mem.2 (Or.inl (h.tu ▸ Tu.top_mem))⟩
    have ht := h.tu
    cases Tu with
    | leaf w =>
      simp only [top] at ht
      subst ht
      rw [h.su.2]
      simp
    | node w A B =>
      simp only [top] at ht
      subst ht
      exact h.su.2.1.symm.subset (by simp)
  refine ⟨(key h).1, (key h.symm).1, (key h).2, (key h.symm).2, fun hc => ?_⟩
  have := List.disjoint_of_nodup_append h.nodup (h.tu ▸ Tu.top_mem : u ∈ Tu.labels)
  exact this (by rw [hc]; exact h.tv ▸ Tv.top_mem)

/-- A contraction has three different neighbours, an operand one. -/
theorem nbrs (h : Cut n adj u v Tu Tv) {x : Nat} (hx : x < 2 * n - 2) :
    (adj x).Nodup ∧ (adj x).length = (if x < n then 1 else 3) ∧ (∀ y ∈ adj x, x ∈ adj y ∧ y < 2 * n - 2 ∧ y ≠ x) := by
  obtain ⟨p, Tx, Tp, hc⟩ : ∃ p Tx Tp, Cut n adj x p Tx Tp := by
    rcases h.mem.1 hx with hx | hx
    · exact h.find x hx
    · exact h.symm.find x hx
  refine ⟨?_, ?_, fun y hy => ?_⟩
  · have ht := hc.tu
    cases Tx with
    | leaf w =>
      simp only [top] at ht
      subst ht
      rw [hc.su.2]
      simp
    | node w A B =>
      simp only [top] at ht
      subst ht
      rw [hc.su.2.1.nodup_iff]
      have hn := hc.nodup
      rw [labels, List.cons_append, List.nodup_cons] at hn
      have h1 := hn.2
      rw [List.append_assoc, List.nodup_append'] at h1
      have h2 := h1.2.1
      rw [List.nodup_append'] at h2
      have hp : p ∈ Tp.labels := hc.tv ▸ Tp.top_mem
      simp only [List.nodup_cons, List.mem_cons, List.not_mem_nil, or_false, not_or, List.nodup_nil, and_true, not_false_eq_true]
      refine ⟨⟨fun e => h1.2.2 A.top_mem (List.mem_append_right _ (e ▸ hp)), fun e => h2.2.2 B.top_mem (e ▸ hp)⟩,
        fun e => h1.2.2 A.top_mem (List.mem_append_left _ (e ▸ B.top_mem))⟩
  · have ht := hc.tu
    cases Tx with
    | leaf w =>
      simp only [top] at ht
      subst ht
      rw [hc.su.2, if_pos hc.su.1]
      rfl
    | node w A B =>
      simp only [top] at ht
      subst ht
      rw [hc.su.2.1.length_eq, if_neg (by have := hc.su.1; omega)]
      rfl
  · obtain ⟨Tx', Ty, hxy⟩ := h.move hx hy
    obtain ⟨a1, a2, a3, a4, a5⟩ := hxy.adjacent
    exact ⟨a2, a4, a5.symm⟩

/-- A cut next to a given neighbour of a contraction. -/
theorem split (h : Cut n adj u v Tu Tv) {c : Nat} (hu : n ≤ u) (hc : c ∈ adj u) (hcv : c ≠ v) :
    ∃ C A, C.top = c ∧ Cut n adj u v (.node u C A) Tv := by
  have ht := h.tu
  cases Tu with
  | leaf w =>
    simp only [top] at ht
    subst ht
    have := h.su.1
    omega
  | node w A B =>
    simp only [top] at ht
    subst ht
    have := h.su.2.1.subset hc
    simp only [List.mem_cons, List.not_mem_nil, or_false] at this
    rcases this with rfl | rfl | rfl
    · exact absurd rfl hcv
    · exact ⟨A, B, rfl, h⟩
    · exact ⟨B, A, rfl, h.swap⟩

end Cut

end Verif
