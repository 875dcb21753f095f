import Verif.Lemmas.UctUnique
/-!
# C57: undirected contraction trees
-/

namespace Verif

namespace Uct

/-- The trees that can be made for the operands `lhs` and the result `rhs`, by the constructor and by the methods that keep
the stem in order.  (A sub-branch given to `unmerge_branches` must not be the vertex of the stem itself, see its
documentation, undirected_contraction_tree.py:183-187.) -/
inductive Reach (lhs : List (Finset Nat)) (rhs : Finset Nat) : Uct → Prop
  | init {g : Uct} {path : List (Nat × Nat)} (h2 : 2 ≤ lhs.length) (hp : ValidPath lhs.length (path.map fun e => [e.1, e.2]))
      (h : make lhs rhs path = some g) : Reach lhs rhs g
  | switch {g g' : Uct} {i : Nat} (h : Reach lhs rhs g) (hi : g.switchBranches i = some g') : Reach lhs rhs g'
  | merge {g g' : Uct} {i c : Nat} (h : Reach lhs rhs g) (hi : g.mergeBranches i = some (g', c)) : Reach lhs rhs g'
  | unmerge {g g' : Uct} {i : Nat} {c : Option Nat} (h : Reach lhs rhs g) (hc : ∀ x, c = some x → g.stem[i]? ≠ some x)
      (hi : g.unmergeBranches i c = some g') : Reach lhs rhs g'
  | step {g g' : Uct} {u v : Nat} (h : Reach lhs rhs g) (hi : g.stepRoot u v = some g') : Reach lhs rhs g'

theorem unmerge_inv {g g' : Uct} (h : g.Inv) (hS : g.IsStem) {i : Nat} {c : Option Nat} (hc : ∀ x, c = some x → g.stem[i]? ≠ some x)
    (hi : g.unmergeBranches i c = some g') : g'.Inv ∧ g'.IsStem ∧ g'.n = g.n ∧ g'.opn = g.opn ∧ g'.sub = g.sub := by
  obtain ⟨X, Y, t0, u, t1, v, d, e, rfl, hv, hv0, hv1, hsb, hd⟩ := unmergeBranches_some hi
  have hst : g.stem[X.length + 1]? = some u := by
    rw [e, List.getElem?_append_right (by omega)]
    simp
  have lu : u < 2 * g.n - 2 := hS.2 u (by rw [e]; simp)
  have lv := (h.nbrs lu).2.2 v hv
  have hdu : d ≠ u := by
    cases c with
    | some x =>
      simp only [subBranch, Option.some.injEq] at hsb
      subst hsb
      intro hx
      exact hc x rfl (by rw [hst, hx])
    | none =>
      have := List.min?_mem hsb
      rw [List.mem_filter] at this
      simpa using this.2
  have hn := h.internal lv.2.1 hd lv.1 hdu
  obtain ⟨g1, c1, b, k1, k2, k3, _, _, k4⟩ := h.unmerge_branches hS e hv hv0 hv1 (c0 := c) hn (by
    rintro x rfl
    simp only [subBranch, Option.some.injEq] at hsb
    subst hsb
    exact ⟨hd, hdu⟩)
  rw [hi, Option.some.injEq] at k1
  subst k1
  exact ⟨k2, k3, k4.n, k4.opn, k4.sub⟩

theorem Reach.inv {lhs : List (Finset Nat)} {rhs : Finset Nat} {g : Uct} (h : Reach lhs rhs g) :
    g.Inv ∧ g.IsStem ∧ g.n = lhs.length ∧ g.opn = rhs ∧ ∀ i, g.sub i = lhs.getD i ∅ := by
  induction h with
  | init h2 hp h =>
    obtain ⟨g1, h1, k1, k2, k3, k4, k5, _⟩ := make_spec (rhs := rhs) h2 hp
    rw [h, Option.some.injEq] at h1
    subst h1
    exact ⟨k1, ⟨k5.path, k5.mem⟩, k2, k3, k4⟩
  | switch h hi ih =>
    obtain ⟨k1, k2, k3, k4, k5⟩ := ih
    obtain ⟨X, Y, t0, u, v, t1, e, rfl⟩ := switchBranches_some hi
    obtain ⟨g1, c0, c1, a1, a2, a3, _, a5⟩ := k1.switch_branches k2 e
    rw [hi, Option.some.injEq] at a1
    subst a1
    exact ⟨a2, a3, a5.n.trans k3, a5.opn.trans k4, fun i => by rw [a5.sub, k5]⟩
  | merge h hi ih =>
    obtain ⟨k1, k2, k3, k4, k5⟩ := ih
    obtain ⟨X, Y, t0, u, v, t1, e, rfl⟩ := mergeBranches_some hi
    obtain ⟨g1, c0, c1, a1, a2, a3, _, a5⟩ := k1.merge_branches k2 e
    rw [hi, Option.some.injEq, Prod.mk.injEq] at a1
    obtain ⟨rfl, rfl⟩ := a1
    exact ⟨a2, a3, a5.n.trans k3, a5.opn.trans k4, fun i => by rw [a5.sub, k5]⟩
  | unmerge h hc hi ih =>
    obtain ⟨k1, k2, k3, k4, k5⟩ := ih
    obtain ⟨a1, a2, a3, a4, a5⟩ := unmerge_inv k1 k2 hc hi
    exact ⟨a1, a2, a3.trans k3, a4.trans k4, fun i => by rw [a5, k5]⟩
  | step h hi ih =>
    obtain ⟨k1, k2, k3, k4, k5⟩ := ih
    obtain ⟨b1, b2, b3⟩ := stepRoot_some k1 hi
    obtain ⟨g1, a1, a2, _, a4, a5, a6, a7, a8⟩ := k1.step b1 b2 b3
    rw [hi, Option.some.injEq] at a1
    subst a1
    refine ⟨a2, ?_, a4.trans k3, a5.trans k4, fun i => by rw [a6, k5]⟩
    unfold IsStem
    rw [a7, a8, a4]
    exact k2

end Uct

open Uct

/-- Six operands around a ring, with an index across (7) and an open index (5), contracted one after the other. -/
def chainTree : Option Uct :=
  make [{0, 1}, {1, 2, 7}, {2, 3, 5}, {3, 4}, {4, 6}, {6, 0, 7}] {5} [(0, 1), (0, 4), (0, 3), (0, 2), (0, 1)]

/-- What can be seen of a tree: the cost, the stem, the root and the path. -/
def Uct.view (g : Uct) : Int × List Nat × (Nat × Nat) × Option (List (Nat × Nat)) := (g.cost, g.stem, g.root, g.getPath)

/-- **C57**: for at least two operands and a valid path the constructor succeeds.  The cost it computes is the cost of the
path, and the stem is a path between two operands that is at least as heavy as every other path of the tree, where the weight
of a contraction is its cost. -/
theorem c57_init {lhs : List (Finset Nat)} {rhs : Finset Nat} {path : List (Nat × Nat)} (h2 : 2 ≤ lhs.length)
    (hp : ValidPath lhs.length (path.map fun e => [e.1, e.2])) :
    ∃ g, make lhs rhs path = some g ∧ Reach lhs rhs g ∧
      (rhs ⊆ indexUnion lhs → g.cost = pathCost rhs lhs path) ∧
      IsGraphPath g.adj g.stem ∧ (∃ a b, g.stem.head? = some a ∧ g.stem.getLast? = some b ∧ a < g.n ∧ b < g.n) ∧
      ∀ P, IsGraphPath g.adj P → (∀ x ∈ P, x < 2 * g.n - 2) → listWeight g.wt P ≤ listWeight g.wt g.stem := by
  obtain ⟨g, h1, k1, k2, k3, k4, k5, k6⟩ := make_spec (rhs := rhs) h2 hp
  exact ⟨g, h1, .init h2 hp h1, k6, k5.path, k5.ends, k5.max⟩

-- the hypotheses: a valid path; and what comes out
example : ValidPath 6 ([(0, 1), (0, 4), (0, 3), (0, 2), (0, 1)].map fun e : Nat × Nat => [e.1, e.2]) :=
  .two (by decide) (by decide) (by decide) (.two (by decide) (by decide) (by decide) (.two (by decide) (by decide) (by decide)
    (.two (by decide) (by decide) (by decide) (.two (by decide) (by decide) (by decide) .done))))

example : chainTree.map Uct.view = some (256, [1, 6, 7, 8, 9, 5], (5, 9), some [(0, 1), (0, 4), (0, 3), (0, 2), (0, 1)]) := by
  decide +kernel

example : pathCost {5} [{0, 1}, {1, 2, 7}, {2, 3, 5}, {3, 4}, {4, 6}, {6, 0, 7}] [(0, 1), (0, 4), (0, 3), (0, 2), (0, 1)] = 256 := by
  decide +kernel

/-- **C57**: with one operand the constructor raises. -/
theorem c57_init_one (s rhs : Finset Nat) (path : List (Nat × Nat)) : make [s] rhs path = none := rfl

/-- **C57**: every tree that can be made is a tree: its vertices are the operands and the contractions, an operand has one
neighbour and a contraction three, and two vertices are joined by exactly one path; and the stem is a path of it. -/
theorem c57_tree {lhs : List (Finset Nat)} {rhs : Finset Nat} {g : Uct} (h : Reach lhs rhs g) :
    g.n = lhs.length ∧
    (∀ x, x < 2 * g.n - 2 → (g.adj x).Nodup ∧ (g.adj x).length = (if x < g.n then 1 else 3) ∧
      ∀ y ∈ g.adj x, x ∈ g.adj y ∧ y < 2 * g.n - 2 ∧ y ≠ x) ∧
    (∀ x z, x < 2 * g.n - 2 → z < 2 * g.n - 2 → ∃! P, IsGraphPath g.adj P ∧ P.head? = some x ∧ P.getLast? = some z) ∧
    IsGraphPath g.adj g.stem ∧ ∀ x ∈ g.stem, x < 2 * g.n - 2 := by
  obtain ⟨k1, k2, k3, k4, k5⟩ := h.inv
  exact ⟨k3, fun x hx => k1.nbrs hx, fun x z hx hz => k1.unique hx hz, k2.1, k2.2⟩

/-- **C57**: at each edge and for each direction, the subscripts of the operands beyond the edge are stored. -/
theorem c57_edges {lhs : List (Finset Nat)} {rhs : Finset Nat} {g : Uct} (h : Reach lhs rhs g) {u v : Nat} (hu : u < 2 * g.n - 2)
    (hv : v ∈ g.adj u) :
    ∃ s, g.side u v = some s ∧
      ∀ e, e ∈ s ↔ ∃ z P, z < lhs.length ∧ e ∈ lhs.getD z ∅ ∧ IsGraphPath g.adj (u :: v :: P) ∧ (v :: P).getLast? = some z := by
  obtain ⟨k1, _, k3, _, k5⟩ := h.inv
  obtain ⟨s, h1, h2⟩ := k1.beyond hu hv
  refine ⟨s, h1, fun e => (h2 e).trans ?_⟩
  constructor
  · rintro ⟨z, P, a, b, c⟩
    exact ⟨z, P, k3 ▸ a, k5 z ▸ b, c⟩
  · rintro ⟨z, P, a, b, c⟩
    exact ⟨z, P, k3.symm ▸ a, (k5 z).symm ▸ b, c⟩

/-- **C57**: after any of the methods `get_path` gives a valid path for the operands, and the stored cost, which is only
changed at the vertices concerned, is the cost of that path. -/
theorem c57_path {lhs : List (Finset Nat)} {rhs : Finset Nat} {g : Uct} (h : Reach lhs rhs g) :
    ∃ path, g.getPath = some path ∧ ValidPath lhs.length (path.map fun e => [e.1, e.2]) ∧
      (rhs ⊆ indexUnion lhs → g.cost = pathCost rhs lhs path) := by
  obtain ⟨k1, _, k3, k4, k5⟩ := h.inv
  obtain ⟨path, h1, h2, h3⟩ := k1.path
  have hl : (List.range g.n).map g.sub = lhs := by
    apply List.ext_getElem
    · simp [k3]
    · intro i _ hi
      rw [List.getElem_map, List.getElem_range, k5, getD_lt hi]
  refine ⟨path, h1, k3 ▸ h2, fun hop => ?_⟩
  rw [hl, k4] at h3
  refine h3 fun e he => ?_
  obtain ⟨s, hs1, hs2⟩ := mem_indexUnion.1 (hop he)
  obtain ⟨i, hi, rfl⟩ := List.mem_iff_getElem.1 hs1
  rw [Finset.mem_biUnion]
  exact ⟨i, Finset.mem_range.2 (k3 ▸ hi), by rw [k5, getD_lt hi]; exact hs2⟩

-- the costs of the paths given after other methods: 288 after `switch_branches(2)` and 224 after `merge_branches(2)`
example : chainTree.bind (fun g => (g.switchBranches 2).map Uct.view) =
    some (288, [1, 6, 7, 8, 9, 5], (5, 9), some [(0, 1), (4, 1), (3, 0), (0, 2), (0, 1)]) := by decide +kernel

example : chainTree.bind (fun g => (g.mergeBranches 2).map fun r => r.1.view) =
    some (224, [1, 6, 7, 9, 5], (5, 9), some [(0, 1), (1, 0), (2, 3), (0, 2), (0, 1)]) := by decide +kernel

example : pathCost {5} [{0, 1}, {1, 2, 7}, {2, 3, 5}, {3, 4}, {4, 6}, {6, 0, 7}] [(0, 1), (1, 0), (2, 3), (0, 2), (0, 1)] = 224 := by
  decide +kernel

/-- **C57**: `switch_branches(i)` and `merge_branches(i)` succeed for all vertices `i` and `i + 1` of the stem that are not
at its ends.  The first leaves the stem, the second takes vertex `i + 1` out of it. -/
theorem c57_branches {lhs : List (Finset Nat)} {rhs : Finset Nat} {g : Uct} (h : Reach lhs rhs g) {i : Nat} (h0 : 0 < i)
    (hi : i + 2 < g.stem.length) :
    (∃ g', g.switchBranches i = some g' ∧ Reach lhs rhs g' ∧ g'.stem = g.stem) ∧
    ∃ g' c, g.mergeBranches i = some (g', c) ∧ Reach lhs rhs g' ∧ g'.stem = g.stem.eraseIdx (i + 1) := by
  obtain ⟨k1, k2, _⟩ := h.inv
  obtain ⟨X, Y, t0, u, v, t1, e, rfl⟩ : ∃ X Y t0 u v t1, g.stem = X ++ (t0 :: u :: v :: t1 :: Y) ∧ X.length + 1 = i := by
    have hl : ((g.stem.drop (i - 1)).take 4).length = 4 := by rw [List.length_take, List.length_drop]; omega
    match hm : (g.stem.drop (i - 1)).take 4, hl with
    | [a, b, c, d], _ =>
      obtain ⟨X, Y, h1, h2⟩ := window (z := [a, b, c, d]) (by simp) hm
      exact ⟨X, Y, a, b, c, d, h1, by omega⟩
  obtain ⟨g1, c0, c1, a1, _, _, a4, _⟩ := k1.switch_branches k2 e
  obtain ⟨g2, d0, d1, b1, _, _, b4, _⟩ := k1.merge_branches k2 e
  refine ⟨⟨g1, a1, h.switch a1, a4⟩, g2, d0, b1, h.merge b1, ?_⟩
  rw [b4, e, List.eraseIdx_append_of_length_le (by omega), show X.length + 1 + 1 - X.length = 2 by omega]
  rfl

/-- **C57**: `unmerge_branches(i)` succeeds if the branch at vertex `i` of the stem is not a single operand.  The vertex of the
branch becomes vertex `i + 1` of the stem. -/
theorem c57_unmerge {lhs : List (Finset Nat)} {rhs : Finset Nat} {g : Uct} (h : Reach lhs rhs g) {X Y : List Nat} {t0 u t1 v : Nat}
    (e : g.stem = X ++ (t0 :: u :: t1 :: Y)) (hv : v ∈ g.adj u) (hv0 : v ≠ t0) (hv1 : v ≠ t1) (hn : g.n ≤ v) :
    ∃ g', g.unmergeBranches (X.length + 1) none = some g' ∧ Reach lhs rhs g' ∧ g'.stem = X ++ (t0 :: u :: v :: t1 :: Y) := by
  obtain ⟨k1, k2, _⟩ := h.inv
  obtain ⟨g1, c1, b, a1, a2, a3, a4, _⟩ := k1.unmerge_branches k2 e hv hv0 hv1 (c0 := none) hn (by simp)
  exact ⟨g1, a1, h.unmerge (by simp) a1, a4⟩

example : chainTree.bind (fun g => (g.mergeBranches 2).map fun r => (r.2, r.1.adj 7, r.1.stem)) = some (2, [6, 8, 9], [1, 6, 7, 9, 5]) := by
  decide +kernel

-- the branch at vertex 2 of the stem after `merge_branches(2)` is the vertex 8
example : chainTree.bind (fun g => (g.mergeBranches 2).bind fun r => (r.1.unmergeBranches 2 none).map Uct.view) =
    some (256, [1, 6, 7, 8, 9, 5], (5, 9), some [(0, 1), (4, 0), (0, 3), (0, 2), (0, 1)]) := by decide +kernel

/-- **C57**: `switch_branches` is its own inverse: doing it twice gives the same tree (neighbours, parents and root), stem and
cost. -/
theorem c57_switch_twice {lhs : List (Finset Nat)} {rhs : Finset Nat} {g g1 : Uct} (h : Reach lhs rhs g) {i : Nat}
    (hi : g.switchBranches i = some g1) :
    ∃ g2, g1.switchBranches i = some g2 ∧ g2.stem = g.stem ∧ g2.cost = g.cost ∧
      (g2.root = g.root ∨ g2.root = (g.root.2, g.root.1)) ∧
      ∀ x, x < 2 * g.n - 2 → (g2.adj x).Perm (g.adj x) ∧ g2.parent x = g.parent x := by
  obtain ⟨k1, k2, _⟩ := h.inv
  obtain ⟨X, Y, t0, u, v, t1, e, rfl⟩ := switchBranches_some hi
  obtain ⟨g1', g2, a1, a2, a3, a4, a5⟩ := k1.switch_twice k2 e
  rw [hi, Option.some.injEq] at a1
  subst a1
  exact ⟨g2, a2, a4, a5.cost k1 a3, a5.root, fun x hx => ⟨a5.adj k1 a3 hx, a5.parent k1 a3 hx⟩⟩

/-- **C57**: `unmerge_branches` with the branch that `merge_branches` returned undoes it: the tree, the stem and the cost are
as before. -/
theorem c57_merge_unmerge {lhs : List (Finset Nat)} {rhs : Finset Nat} {g g1 : Uct} (h : Reach lhs rhs g) {i c : Nat}
    (hi : g.mergeBranches i = some (g1, c)) :
    ∃ g2, g1.unmergeBranches i (some c) = some g2 ∧ g2.stem = g.stem ∧ g2.cost = g.cost ∧
      (g2.root = g.root ∨ g2.root = (g.root.2, g.root.1)) ∧
      ∀ x, x < 2 * g.n - 2 → (g2.adj x).Perm (g.adj x) ∧ g2.parent x = g.parent x := by
  obtain ⟨k1, k2, _⟩ := h.inv
  obtain ⟨X, Y, t0, u, v, t1, e, rfl⟩ := mergeBranches_some hi
  obtain ⟨g1', c', g2, a1, a2, a3, a4, a5⟩ := k1.merge_unmerge k2 e
  rw [hi, Option.some.injEq, Prod.mk.injEq] at a1
  obtain ⟨rfl, rfl⟩ := a1
  exact ⟨g2, a2, a4, a5.cost k1 a3, a5.root, fun x hx => ⟨a5.adj k1 a3 hx, a5.parent k1 a3 hx⟩⟩

/-- **C57**: `step_root(u, v)` succeeds exactly if `u` is a contraction at the root and `v` is next to it; it moves the root
and leaves the graph. -/
theorem c57_step_root {lhs : List (Finset Nat)} {rhs : Finset Nat} {g : Uct} (h : Reach lhs rhs g) (u v : Nat) :
    ((∃ g', g.stepRoot u v = some g') ↔ (u = g.root.1 ∨ u = g.root.2) ∧ g.n ≤ u ∧ v ∈ g.adj u) ∧
    ∀ g', g.stepRoot u v = some g' → Reach lhs rhs g' ∧ g'.root = (u, v) ∧ g'.adj = g.adj ∧ g'.stem = g.stem := by
  obtain ⟨k1, _⟩ := h.inv
  refine ⟨⟨fun ⟨g', hi⟩ => stepRoot_some k1 hi, fun ⟨b1, b2, b3⟩ => ?_⟩, fun g' hi => ?_⟩
  · obtain ⟨g1, a1, _⟩ := k1.step b1 b2 b3
    exact ⟨g1, a1⟩
  · obtain ⟨b1, b2, b3⟩ := stepRoot_some k1 hi
    obtain ⟨g1, a1, _, a3, _, _, _, a7, a8⟩ := k1.step b1 b2 b3
    rw [hi, Option.some.injEq] at a1
    subst a1
    exact ⟨h.step hi, a3, a8, a7⟩

example : chainTree.bind (fun g => (g.stepRoot 9 8).bind fun g' => (g'.stepRoot 8 3).map Uct.view) =
    some (208, [1, 6, 7, 8, 9, 5], (8, 3), some [(0, 1), (0, 4), (1, 2), (1, 2), (0, 1)]) := by decide +kernel

/-- **C57**: `switch_edges` on its own, for any path `c0 - u - v - c1` of the tree (it may break the stem, see its
documentation): the tree stays a tree, gives a valid path, and the cost is the cost of that path. -/
theorem c57_switch_edges {lhs : List (Finset Nat)} {rhs : Finset Nat} {g : Uct} (h : Reach lhs rhs g) {u c0 v c1 : Nat}
    (hu : u < 2 * g.n - 2) (h0 : c0 ∈ g.adj u) (hv : v ∈ g.adj u) (h1 : c1 ∈ g.adj v) (n0 : c0 ≠ v) (n1 : c1 ≠ u) :
    ∃ g' path, g.switchEdges u c0 v c1 = some g' ∧ c1 ∈ g'.adj u ∧ c0 ∈ g'.adj v ∧ v ∈ g'.adj u ∧ c0 ∉ g'.adj u ∧ c1 ∉ g'.adj v ∧
      g'.getPath = some path ∧ ValidPath lhs.length (path.map fun e => [e.1, e.2]) ∧
      (rhs ⊆ indexUnion lhs → g'.cost = pathCost rhs lhs path) := by
  obtain ⟨k1, _, k3, k4, k5⟩ := h.inv
  obtain ⟨g', a, b, a1, a2, a3, _⟩ := k1.switch hu h0 hv h1 n0 n1
  obtain ⟨path, h1, h2, h3⟩ := a2.path
  have hl : (List.range g'.n).map g'.sub = lhs := by
    apply List.ext_getElem
    · simp [a3.n, k3]
    · intro i _ hi
      rw [List.getElem_map, List.getElem_range, a3.sub, k5, getD_lt hi]
  have F := a3.four
  refine ⟨g', path, a1, by rw [← mem_nb, a3.nu']; simp, by rw [← mem_nb, a3.nv']; simp, by rw [← mem_nb, a3.nu']; simp, ?_, ?_, h1,
    by rw [← k3, ← a3.n]; exact h2, fun hop => ?_⟩
  · rw [← mem_nb, a3.nu']
    simp only [Finset.mem_insert, Finset.mem_singleton, not_or]
    exact ⟨F.c0v, F.cc, fun e => a3.ha.2.2.1 e.symm⟩
  · rw [← mem_nb, a3.nv']
    simp only [Finset.mem_insert, Finset.mem_singleton, not_or]
    exact ⟨F.c1u, F.cc.symm, fun e => a3.hb.2.2.2 e.symm⟩
  · rw [hl, a3.opn, k4] at h3
    refine h3 fun e he => ?_
    obtain ⟨s, hs1, hs2⟩ := mem_indexUnion.1 (hop he)
    obtain ⟨i, hi, rfl⟩ := List.mem_iff_getElem.1 hs1
    rw [Finset.mem_biUnion]
    exact ⟨i, Finset.mem_range.2 (by rw [a3.n, k3]; exact hi), by rw [a3.sub, k5, getD_lt hi]; exact hs2⟩

end Verif
