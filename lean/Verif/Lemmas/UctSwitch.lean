import Verif.Lemmas.UctTree
import Mathlib.Algebra.BigOperators.Group.Finset.Basic
import Mathlib.Order.Interval.Finset.Nat
/-!
# `UndirectedContractionTree`: the invariant, and what exchanging two branches does to the attributes
-/

namespace Verif

theorem put_same {α : Type} (f : Nat → α) (k : Nat) (x : α) : put f k x k = x := by simp [put]

theorem put_ne {α : Type} {f : Nat → α} {k i : Nat} {x : α} (h : i ≠ k) : put f k x i = f i := by simp [put, h]

namespace Uct

/-- The neighbours of a vertex. -/
def nb (g : Uct) (x : Nat) : Finset Nat := (g.adj x).toFinset

/-- The subscripts beyond an edge. -/
def sd (g : Uct) (x y : Nat) : Finset Nat := (g.side x y).getD ∅

theorem mem_nb {g : Uct} {x y : Nat} : y ∈ g.nb x ↔ y ∈ g.adj x := List.mem_toFinset

theorem openAt_eq (g : Uct) (u v : Nat) : g.openAt u v = if v < g.n then g.sd u v else g.sd u v ∩ (g.sd v u ∪ g.opn) := rfl

theorem stepCost_union (s0 s1 s : Finset Nat) : stepCost s0 s1 s = stepCost (s0 ∪ s1) ∅ s := by
  unfold stepCost
  simp only [Finset.union_empty]

/-- The cost of the contraction at a vertex. -/
def vcost (g : Uct) (y : Nat) : Nat := stepCost (((g.nb y).erase (g.parent y)).biUnion (g.openAt y)) ∅ (g.openAt (g.parent y) y)

/-- The cost of the last contraction. -/
def rcost (g : Uct) : Nat := stepCost (g.openAt g.root.1 g.root.2) (g.openAt g.root.2 g.root.1) g.opn

/-- The graph is a tree with operands at the ends and contractions everywhere else. -/
def Tree (g : Uct) : Prop := ∃ Tu Tv, Cut g.n g.adj g.root.1 g.root.2 Tu Tv

/-- What is stored at the edges: the subscripts of the operands beyond. -/
structure Sides (g : Uct) : Prop where
  some : ∀ x y, x < 2 * g.n - 2 → y ∈ g.adj x → (g.side x y).isSome
  leaf : ∀ x y, x < 2 * g.n - 2 → y ∈ g.adj x → y < g.n → g.sd x y = g.sub y
  node : ∀ x y, x < 2 * g.n - 2 → y ∈ g.adj x → g.n ≤ y → g.sd x y = ((g.nb y).erase x).biUnion (g.sd y)

/-- The parents lead to the root edge. -/
structure Parents (g : Uct) : Prop where
  mem : ∀ x, x < 2 * g.n - 2 → g.parent x ∈ g.adj x
  root : g.parent g.root.1 = g.root.2 ∧ g.parent g.root.2 = g.root.1
  uniq : ∀ x, x < 2 * g.n - 2 → g.parent (g.parent x) = x → g.root = (x, g.parent x) ∨ g.root = (g.parent x, x)

/-- The total is the sum of the stored costs. -/
def Total (g : Uct) : Prop :=
  g.cost = g.rootCost + ∑ v ∈ Finset.Ico g.n (2 * g.n - 2), (((g.ncost v).getD 0 : Nat) : Int)

/-- The invariant of the class. -/
structure Inv (g : Uct) : Prop where
  two : 2 ≤ g.n
  tree : g.Tree
  sides : g.Sides
  parents : g.Parents
  node : ∀ y, g.n ≤ y → y < 2 * g.n - 2 → g.ncost y = some (g.vcost y)
  root : g.rootCost = g.rcost
  total : g.Total

theorem filter_two {l : List Nat} (hn : l.Nodup) (hl : l.length = 3) {p : Nat} (hp : p ∈ l) :
    ∃ a b, l.filter (· ≠ p) = [a, b] ∧ l.toFinset.erase p = {a, b} ∧ a ≠ b ∧ l.Perm [p, a, b] := by
  have h1 : (l.erase p).length = 2 := by rw [List.length_erase_of_mem hp, hl]
  have h2 : l.erase p = l.filter (· ≠ p) := by
    rw [hn.erase_eq_filter]
    apply List.filter_congr
    intro x _
    simp [bne]
    by_cases h : x = p <;> simp [h]
  match h3 : l.erase p, h1 with
  | [a, b], _ =>
    have hf : l.filter (· ≠ p) = [a, b] := by rw [← h2, h3]
    have hab : (l.erase p).Nodup := hn.erase p
    rw [h3] at hab
    refine ⟨a, b, hf, ?_, by simpa using hab, (List.perm_cons_erase hp).trans (by rw [h3])⟩
    ext x
    have hx : x ∈ l.filter (· ≠ p) ↔ x ∈ [a, b] := by rw [hf]
    simp only [List.mem_filter, decide_eq_true_eq, List.mem_cons, List.not_mem_nil, or_false] at hx
    simp only [Finset.mem_erase, List.mem_toFinset, Finset.mem_insert, Finset.mem_singleton]
    rw [and_comm]
    exact hx

/-- `compute_node_cost` at a contraction. -/
theorem computeNodeCost_eq {g : Uct} {v : Nat} (hn : (g.adj v).Nodup) (hl : (g.adj v).length = 3) (hp : g.parent v ∈ g.adj v) :
    g.computeNodeCost v = some { g with cost := g.cost - ((g.ncost v).getD 0 : Nat) + g.vcost v, ncost := put g.ncost v (some (g.vcost v)) } := by
  obtain ⟨a, b, hf, hs, _, _⟩ := filter_two hn hl hp
  unfold computeNodeCost
  rw [hf]
  have hv : g.vcost v = stepCost (g.openAt v a) (g.openAt v b) (g.openAt (g.parent v) v) := by
    unfold vcost
    rw [show g.nb v = (g.adj v).toFinset from rfl, hs, stepCost_union (g.openAt v a)]
    congr 1
    rw [Finset.biUnion_insert, Finset.singleton_biUnion]
  simp only [hv]
  cases g.ncost v <;> rfl

theorem total_node {g g' : Uct} {v : Nat} (h : g.Total) (h1 : g.n ≤ v) (h2 : v < 2 * g.n - 2)
    (hv : g.computeNodeCost v = some g') : g'.Total := by
  unfold computeNodeCost at hv
  split at hv
  · rename_i c0 c1 _
    simp only [Option.some.injEq] at hv
    subst hv
    unfold Total at h ⊢
    have hm : v ∈ Finset.Ico g.n (2 * g.n - 2) := Finset.mem_Ico.2 ⟨h1, h2⟩
    simp only
    rw [← Finset.add_sum_erase _ _ hm] at h ⊢
    rw [put_same, h]
    have : ∑ x ∈ (Finset.Ico g.n (2 * g.n - 2)).erase v, (((put g.ncost v (some (stepCost (g.openAt v c0) (g.openAt v c1)
        (g.openAt (g.parent v) v))) x).getD 0 : Nat) : Int) = ∑ x ∈ (Finset.Ico g.n (2 * g.n - 2)).erase v, (((g.ncost x).getD 0 : Nat) : Int) := by
      apply Finset.sum_congr rfl
      intro x hx
      rw [put_ne (Finset.mem_erase.1 hx).1]
    rw [this]
    cases g.ncost v <;> simp <;> omega
  · exact absurd hv (by simp)

theorem total_root {g : Uct} (h : g.Total) : g.computeRootCost.Total := by
  unfold Total at h ⊢
  unfold computeRootCost
  simp only
  omega

/-- `preprocess_edge` when everything behind the edge is known. -/
theorem preprocess_memo {g : Uct} {u v : Nat} (k : Nat) (h0 : g.side u v = none) (hv : g.n ≤ v) (hn : (g.adj v).Nodup)
    (hl : (g.adj v).length = 3) (hu : u ∈ g.adj v) (hs : ∀ c ∈ g.adj v, c ≠ u → (g.side v c).isSome) :
    preprocess (k + 2) g u v = some (g.setSide u v (some (((g.nb v).erase u).biUnion (g.sd v))), ((g.nb v).erase u).biUnion (g.sd v)) := by
  obtain ⟨a, b, hf, hs', hab, hperm⟩ := filter_two hn hl hu
  have hnp := hperm.nodup_iff.1 hn
  simp only [List.nodup_cons, List.mem_cons, List.not_mem_nil, or_false, not_or] at hnp
  have ha := hs a (hperm.symm.subset (by simp)) (fun e => hnp.1.1 e.symm)
  have hb := hs b (hperm.symm.subset (by simp)) (fun e => hnp.1.2 e.symm)
  obtain ⟨sa, ea⟩ := Option.isSome_iff_exists.1 ha
  obtain ⟨sb, eb⟩ := Option.isSome_iff_exists.1 hb
  have hu : ((g.nb v).erase u).biUnion (g.sd v) = sa ∪ sb := by
    rw [show g.nb v = (g.adj v).toFinset from rfl, hs', Finset.biUnion_insert, Finset.singleton_biUnion]
    simp [sd, ea, eb]
  rw [hu]
  unfold preprocess
  rw [h0]
  simp only [if_neg (Nat.not_lt.2 hv), hf]
  unfold preprocess
  rw [ea]
  simp only [eb]

/-- What moving the branch at `c0` from `u` to `v` does to the attributes. -/
theorem moveBranch_spec {g : Uct} {u c0 v : Nat} (huv : u ≠ v) (hu : c0 ≠ u) (hv : c0 ≠ v) (hc : c0 ∉ g.adj v) :
    (g.moveBranch u c0 v).adj = (fun x => if x = u then (g.adj u).erase c0 else if x = v then g.adj v ++ [c0]
      else if x = c0 then (g.adj c0 ++ [v]).erase u else g.adj x) ∧
    (g.moveBranch u c0 v).side = (fun x y => if (x = u ∧ y = c0) ∨ (x = c0 ∧ y = u) then none
      else if x = v ∧ y = c0 then g.side u c0 else if x = c0 ∧ y = v then g.side c0 u else g.side x y) ∧
    (g.moveBranch u c0 v).parent = (fun x => if x = u then (if g.parent u = c0 then v else g.parent u)
      else if x = v then (if g.parent u = c0 then c0 else g.parent v)
      else if x = c0 then (if g.parent c0 = u then v else g.parent c0) else g.parent x) ∧
    (g.moveBranch u c0 v).root = (if g.root = (u, c0) ∨ g.root = (c0, u) then (v, c0) else g.root) ∧
    (g.moveBranch u c0 v).n = g.n ∧ (g.moveBranch u c0 v).opn = g.opn ∧ (g.moveBranch u c0 v).sub = g.sub ∧
    (g.moveBranch u c0 v).ncost = g.ncost ∧ (g.moveBranch u c0 v).rootCost = g.rootCost ∧
    (g.moveBranch u c0 v).cost = g.cost ∧ (g.moveBranch u c0 v).stem = g.stem := by
  have huv' := huv.symm
  have hu' := hu.symm
  have hv' := hv.symm
  unfold moveBranch addEdge
  simp only [if_neg hc]
  simp only [removeEdge, setSide, apply_ite Uct.adj, apply_ite Uct.side, apply_ite Uct.parent, apply_ite Uct.root, apply_ite Uct.n,
    apply_ite Uct.opn, apply_ite Uct.sub, apply_ite Uct.ncost, apply_ite Uct.rootCost, apply_ite Uct.cost, apply_ite Uct.stem, ite_self,
    and_true]
  refine ⟨?_, ?_, ?_⟩
  · funext x
    by_cases h1 : x = u
    · subst h1; simp [put, *]
    · by_cases h2 : x = v
      · subst h2; simp [put, *]
      · by_cases h3 : x = c0
        · subst h3; simp [put, *]
        · simp [put, *]
  · funext x y
    by_cases h1 : x = u
    · subst h1; by_cases h4 : y = c0 <;> simp [*]
    · by_cases h2 : x = v
      · subst h2; by_cases h4 : y = c0 <;> simp [*]
      · by_cases h3 : x = c0
        · subst h3; by_cases h4 : y = u <;> by_cases h5 : y = v <;> simp [*]
        · simp [*]
  · funext x
    by_cases h1 : g.parent c0 = u <;> by_cases h2 : g.parent u = c0 <;> simp only [h1, h2, put, if_true, if_false, hu'] <;>
    by_cases h1 : x = u <;> by_cases h2 : x = v <;> by_cases h3 : x = c0 <;> simp_all

/-- The tree within `switch_edges` after the loop and after the data of the edge between `u` and `v` is cleared. -/
def mid (g : Uct) (u c0 v c1 : Nat) : Uct :=
  (((g.moveBranch u c0 v).moveBranch v c1 u).setSide u v none).setSide v u none

/-- The four vertices of an exchange of branches. -/
structure Four (g : Uct) (u c0 v c1 : Nat) : Prop where
  uv : u ≠ v
  c0u : c0 ≠ u
  c0v : c0 ≠ v
  c1u : c1 ≠ u
  c1v : c1 ≠ v
  cc : c0 ≠ c1
  nc0 : c0 ∉ g.adj v
  nc1 : c1 ∉ g.adj u

theorem mid_spec {g : Uct} {u c0 v c1 : Nat} (h : g.Four u c0 v c1) :
    (g.mid u c0 v c1).adj = (fun x => if x = u then (g.adj u).erase c0 ++ [c1] else if x = v then (g.adj v ++ [c0]).erase c1
      else if x = c0 then (g.adj c0 ++ [v]).erase u else if x = c1 then (g.adj c1 ++ [u]).erase v else g.adj x) ∧
    (∀ x y, (g.mid u c0 v c1).side x y = if x = u then (if y = v ∨ y = c0 then none else if y = c1 then g.side v c1 else g.side u y)
      else if x = v then (if y = u ∨ y = c1 then none else if y = c0 then g.side u c0 else g.side v y)
      else if x = c0 then (if y = u then none else if y = v then g.side c0 u else g.side c0 y)
      else if x = c1 then (if y = v then none else if y = u then g.side c1 v else g.side c1 y) else g.side x y) ∧
    (g.mid u c0 v c1).parent = (fun x => if x = u then (if g.parent u = c0 then v else if g.parent v = c1 then c1 else g.parent u)
      else if x = v then (if g.parent u = c0 then c0 else if g.parent v = c1 then u else g.parent v)
      else if x = c0 then (if g.parent c0 = u then v else g.parent c0)
      else if x = c1 then (if g.parent c1 = v then u else g.parent c1) else g.parent x) ∧
    (g.mid u c0 v c1).root = (if g.root = (u, c0) ∨ g.root = (c0, u) then (v, c0)
      else if g.root = (v, c1) ∨ g.root = (c1, v) then (u, c1) else g.root) ∧
    (g.mid u c0 v c1).n = g.n ∧ (g.mid u c0 v c1).opn = g.opn ∧ (g.mid u c0 v c1).sub = g.sub ∧
    (g.mid u c0 v c1).ncost = g.ncost ∧ (g.mid u c0 v c1).rootCost = g.rootCost ∧
    (g.mid u c0 v c1).cost = g.cost ∧ (g.mid u c0 v c1).stem = g.stem := by
  obtain ⟨huv, h0u, h0v, h1u, h1v, hcc, hn0, hn1⟩ := h
  have huv' := huv.symm
  have h0u' := h0u.symm
  have h0v' := h0v.symm
  have h1u' := h1u.symm
  have h1v' := h1v.symm
  have hcc' := hcc.symm
  obtain ⟨a1, a2, a3, a4, a5, a6, a7, a8, a9, a10, a11⟩ := moveBranch_spec (g := g) huv h0u h0v hn0
  have hn1' : c1 ∉ (g.moveBranch u c0 v).adj u := by
    rw [a1]
    simp only [if_true]
    exact fun hc => hn1 (List.mem_of_mem_erase hc)
  obtain ⟨b1, b2, b3, b4, b5, b6, b7, b8, b9, b10, b11⟩ := moveBranch_spec (g := g.moveBranch u c0 v) huv' h1v h1u hn1'
  unfold mid
  simp only [setSide]
  refine ⟨?_, ?_, ?_, ?_, by rw [b5, a5], by rw [b6, a6], by rw [b7, a7], by rw [b8, a8], by rw [b9, a9], by rw [b10, a10], by rw [b11, a11]⟩
  · rw [b1, a1]
    clear b1 b2 b3 b4 b5 b6 b7 b8 b9 b10 b11 hn1' a1 a2 a3 a4 a5 a6 a7 a8 a9 a10 a11
    funext x
    by_cases h1 : x = u
    · subst h1; simp [*]
    · by_cases h2 : x = v
      · subst h2; simp [*]
      · by_cases h3 : x = c0
        · subst h3; simp [*]
        · simp [*]
  · intro x y
    rw [b2, a2]
    clear b1 b2 b3 b4 b5 b6 b7 b8 b9 b10 b11 hn1' a1 a2 a3 a4 a5 a6 a7 a8 a9 a10 a11
    by_cases h1 : x = u
    · subst h1; by_cases h4 : y = c0 <;> by_cases h5 : y = c1 <;> by_cases h6 : y = v <;> simp_all
    · by_cases h2 : x = v
      · subst h2; by_cases h4 : y = c0 <;> by_cases h5 : y = c1 <;> by_cases h6 : y = u <;> simp_all
      · by_cases h3 : x = c0
        · subst h3; by_cases h4 : y = u <;> by_cases h5 : y = v <;> simp_all
        · by_cases h7 : x = c1
          · subst h7; by_cases h4 : y = u <;> by_cases h5 : y = v <;> simp_all
          · simp [*]
  · rw [b3, a3]
    clear b1 b2 b3 b4 b5 b6 b7 b8 b9 b10 b11 hn1' a1 a2 a3 a4 a5 a6 a7 a8 a9 a10 a11
    funext x
    by_cases h1 : x = u
    · subst h1; by_cases e1 : g.parent x = c0 <;> by_cases e2 : g.parent v = c1 <;> simp_all
    · by_cases h2 : x = v
      · subst h2; by_cases e1 : g.parent u = c0 <;> by_cases e2 : g.parent x = c1 <;> simp_all
      · by_cases h3 : x = c0
        · subst h3; simp [*]
        · simp [*]
  · rw [b4, a4]
    clear b1 b2 b3 b4 b5 b6 b7 b8 b9 b10 b11 hn1' a1 a2 a3 a4 a5 a6 a7 a8 a9 a10 a11
    by_cases e1 : g.root = (u, c0) ∨ g.root = (c0, u)
    · simp [*]
    · simp only [if_neg e1]

end Uct

end Verif
