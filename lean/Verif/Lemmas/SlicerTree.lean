import Verif.Model.Slicer
import Verif.Props.Uct
/-!
# The slicer: which tree it works on
-/

namespace Verif

namespace Uct

/-- The two trees have the same vertices, edges, root and stem. -/
structure Skel (g h : Uct) : Prop where
  n : g.n = h.n
  adj : g.adj = h.adj
  parent : g.parent = h.parent
  root : g.root = h.root
  stem : g.stem = h.stem

theorem Skel.refl (g : Uct) : Skel g g := ⟨rfl, rfl, rfl, rfl, rfl⟩

theorem Skel.trans {a b c : Uct} (h : Skel a b) (h' : Skel b c) : Skel a c :=
  ⟨h.n.trans h'.n, h.adj.trans h'.adj, h.parent.trans h'.parent, h.root.trans h'.root, h.stem.trans h'.stem⟩

theorem Skel.symm {a b : Uct} (h : Skel a b) : Skel b a :=
  ⟨h.n.symm, h.adj.symm, h.parent.symm, h.root.symm, h.stem.symm⟩

theorem skel_setSide (g : Uct) (u v : Nat) (s : Option (Finset Nat)) : Skel (g.setSide u v s) g := ⟨rfl, rfl, rfl, rfl, rfl⟩

theorem skel_preprocess {fuel : Nat} {g g' : Uct} {u v : Nat} {s : Finset Nat} (h : preprocess fuel g u v = some (g', s)) : Skel g' g := by
  induction fuel generalizing g u v g' s with
  | zero => simp [preprocess] at h
  | succ fuel ih =>
    unfold preprocess at h
    split at h
    · simp only [Option.some.injEq, Prod.mk.injEq] at h
      rw [← h.1]
      exact .refl _
    · split at h
      · simp only [Option.some.injEq, Prod.mk.injEq] at h
        rw [← h.1]
        exact skel_setSide ..
      · split at h
        · split at h
          · simp at h
          · rename_i h1
            split at h
            · simp at h
            · rename_i h2
              simp only [Option.some.injEq, Prod.mk.injEq] at h
              rw [← h.1]
              exact (skel_setSide ..).trans ((ih h2).trans (ih h1))
        · simp at h

theorem skel_preprocess2 {fuel : Nat} {g g' : Uct} {e : Nat × Nat} (h : preprocess2 fuel g e = some g') : Skel g' g := by
  unfold preprocess2 at h
  split at h
  · simp at h
  · rename_i h1
    rw [Option.map_eq_some_iff] at h
    obtain ⟨⟨a, b⟩, h2, rfl⟩ := h
    exact (skel_preprocess h2).trans (skel_preprocess h1)

theorem skel_rootCost (g : Uct) : Skel g.computeRootCost g := ⟨rfl, rfl, rfl, rfl, rfl⟩

theorem skel_nodeCost {g g' : Uct} {v : Nat} (h : g.computeNodeCost v = some g') : Skel g' g := by
  unfold computeNodeCost at h
  split at h
  · simp only [Option.some.injEq] at h
    rw [← h]
    exact ⟨rfl, rfl, rfl, rfl, rfl⟩
  · simp at h

theorem skel_foldlM {α : Type} {f : Uct → α → Option Uct} (hf : ∀ g a g', f g a = some g' → Skel g' g) :
    ∀ (l : List α) (g g' : Uct), l.foldlM f g = some g' → Skel g' g
  | [], g, g', h => by
    simp only [List.foldlM_nil, Option.pure_def, Option.some.injEq] at h
    rw [← h]
    exact .refl _
  | a :: l, g, g', h => by
    rw [List.foldlM_cons] at h
    simp only [Option.bind_eq_bind, Option.bind_eq_some_iff] at h
    obtain ⟨g1, h1, h2⟩ := h
    exact (skel_foldlM hf l g1 g' h2).trans (hf _ _ _ h1)

/-- Taking a subscript out does not change the tree. -/
theorem skel_removeSub {g g' : Uct} {s : Nat} (h : g.removeSub s = some g') : Skel g' g := by
  unfold removeSub at h
  simp only at h
  split at h
  · simp at h
  · rename_i g2 h2
    have k1 := skel_foldlM (fun h' e g' hh => (skel_preprocess2 hh).trans ((skel_setSide ..).trans (skel_setSide ..))) _ _ _ h2
    have k2 := skel_foldlM (fun _ _ _ hh => skel_nodeCost hh) _ _ _ h
    exact k2.trans ((skel_rootCost _).trans (k1.trans ⟨rfl, rfl, rfl, rfl, rfl⟩))

theorem skel_addEdge {g h : Uct} (k : Skel g h) (u v : Nat) : Skel (g.addEdge u v) (h.addEdge u v) := by
  unfold addEdge
  rw [k.adj]
  split
  · exact k
  · exact ⟨k.n, rfl, k.parent, k.root, k.stem⟩

theorem skel_removeEdge {g h : Uct} (k : Skel g h) (u v : Nat) : Skel (g.removeEdge u v) (h.removeEdge u v) := by
  unfold removeEdge
  rw [k.adj]
  exact ⟨k.n, rfl, k.parent, k.root, k.stem⟩

theorem skel_move {g h : Uct} (k : Skel g h) (u c v : Nat) : Skel (g.moveBranch u c v) (h.moveBranch u c v) := by
  unfold moveBranch
  simp only
  have k3 : Skel ((((g.addEdge v c).setSide v c ((g.addEdge v c).side u c)).setSide c v ((g.addEdge v c).side c u)).removeEdge u c)
      ((((h.addEdge v c).setSide v c ((h.addEdge v c).side u c)).setSide c v ((h.addEdge v c).side c u)).removeEdge u c) :=
    skel_removeEdge ((skel_setSide ..).trans ((skel_setSide ..).trans ((skel_addEdge k v c).trans
      ((skel_setSide ..).trans (skel_setSide ..)).symm))) u c
  generalize (((g.addEdge v c).setSide v c ((g.addEdge v c).side u c)).setSide c v ((g.addEdge v c).side c u)).removeEdge u c = g3 at k3 ⊢
  generalize (((h.addEdge v c).setSide v c ((h.addEdge v c).side u c)).setSide c v ((h.addEdge v c).side c u)).removeEdge u c = h3 at k3 ⊢
  have k4 : Skel (if g3.parent c = u then { g3 with parent := put g3.parent c v } else g3)
      (if h3.parent c = u then { h3 with parent := put h3.parent c v } else h3) := by
    rw [k3.parent]
    split
    · exact ⟨k3.n, k3.adj, rfl, k3.root, k3.stem⟩
    · exact k3
  generalize (if g3.parent c = u then { g3 with parent := put g3.parent c v } else g3) = g4 at k4 ⊢
  generalize (if h3.parent c = u then { h3 with parent := put h3.parent c v } else h3) = h4 at k4 ⊢
  have k5 : Skel (if g4.parent u = c then { g4 with parent := put (put g4.parent v c) u v } else g4)
      (if h4.parent u = c then { h4 with parent := put (put h4.parent v c) u v } else h4) := by
    rw [k4.parent]
    split
    · exact ⟨k4.n, k4.adj, rfl, k4.root, k4.stem⟩
    · exact k4
  generalize (if g4.parent u = c then { g4 with parent := put (put g4.parent v c) u v } else g4) = g5 at k5 ⊢
  generalize (if h4.parent u = c then { h4 with parent := put (put h4.parent v c) u v } else h4) = h5 at k5 ⊢
  rw [k5.root]
  split
  · exact ⟨k5.n, k5.adj, k5.parent, rfl, k5.stem⟩
  · exact k5

theorem skel_switchEdges {g g' h h' : Uct} (k : Skel g h) {u c0 v c1 : Nat} (hg : g.switchEdges u c0 v c1 = some g')
    (hh : h.switchEdges u c0 v c1 = some h') : Skel g' h' := by
  have key : ∀ {g g' : Uct}, g.switchEdges u c0 v c1 = some g' → Skel g' ((g.moveBranch u c0 v).moveBranch v c1 u) := by
    intro g g' hg
    unfold switchEdges at hg
    split at hg
    · simp at hg
    · simp only at hg
      split at hg
      · simp at hg
      · rename_i h4
        split at hg
        · simp at hg
        · rename_i h5
          split at hg
          · simp at hg
          · rename_i h6
            simp only [Option.some.injEq] at hg
            have k6 := (skel_nodeCost h6).trans ((skel_nodeCost h5).trans ((skel_preprocess2 h4).trans ((skel_setSide ..).trans (skel_setSide ..))))
            rw [← hg]
            split
            · exact (skel_rootCost _).trans k6
            · exact k6
  exact (key hg).trans ((skel_move (skel_move k u c0 v) v c1 u).trans (key hh).symm)

theorem skel_switch {g g' h h' : Uct} (k : Skel g h) {i : Nat} (hg : g.switchBranches i = some g')
    (hh : h.switchBranches i = some h') : Skel g' h' := by
  unfold switchBranches at hg hh
  have e1 : g.stem4 i = h.stem4 i := by unfold stem4; rw [k.stem]
  have e2 : ∀ u a b, g.third u a b = h.third u a b := fun u a b => by unfold third; rw [k.adj]
  rw [e1] at hg
  split at hg
  · simp at hg
  · rename_i t0 u v t1 h4
    rw [h4] at hh
    simp only [e2] at hg hh
    split at hg
    · rename_i c0 c1 f0 f1
      rw [f0, f1] at hh
      exact skel_switchEdges k hg hh
    · simp at hg

theorem skel_internalPath {g h : Uct} (k : Skel g h) (fuel v : Nat) : g.internalPath fuel v = h.internalPath fuel v := by
  induction fuel generalizing v with
  | zero => rfl
  | succ fuel ih =>
    unfold internalPath
    rw [k.n, k.adj, k.parent]
    split
    · rfl
    · split
      · rw [ih, ih]
      · rfl

theorem skel_getPath {g h : Uct} (k : Skel g h) : g.getPath = h.getPath := by
  unfold getPath
  rw [k.n, k.root, skel_internalPath k, skel_internalPath k]

/-- The two trees have the same vertices, edges, root and stem, and the same entries are present. -/
structure Lock (g h : Uct) : Prop where
  skel : Skel g h
  side : ∀ x y, (g.side x y).isSome = (h.side x y).isSome

theorem Lock.setSide {g h : Uct} (k : Lock g h) (u v : Nat) {s t : Option (Finset Nat)} (hs : s.isSome = t.isSome) :
    Lock (g.setSide u v s) (h.setSide u v t) := by
  refine ⟨(skel_setSide ..).trans (k.skel.trans (skel_setSide ..).symm), fun x y => ?_⟩
  unfold Uct.setSide
  dsimp only
  split
  · exact hs
  · exact k.side x y

theorem Lock.preprocess {fuel : Nat} {g h h' : Uct} {u v : Nat} {s : Finset Nat} (k : Lock g h)
    (hh : Uct.preprocess fuel h u v = some (h', s)) : ∃ g' s', Uct.preprocess fuel g u v = some (g', s') ∧ Lock g' h' := by
  induction fuel generalizing g h h' u v s with
  | zero => simp [Uct.preprocess] at hh
  | succ fuel ih =>
    unfold Uct.preprocess at hh ⊢
    have hsd := k.side u v
    cases hx : h.side u v with
    | some t =>
      rw [hx] at hh hsd
      cases hy : g.side u v with
      | none => rw [hy] at hsd; simp at hsd
      | some t' =>
        simp only [Option.some.injEq, Prod.mk.injEq] at hh
        exact ⟨g, t', rfl, hh.1 ▸ k⟩
    | none =>
      rw [hx] at hh hsd
      cases hy : g.side u v with
      | some t' => rw [hy] at hsd; simp at hsd
      | none =>
        simp only at hh ⊢
        rw [k.skel.n, k.skel.adj]
        by_cases hv : v < h.n
        · rw [if_pos hv] at hh ⊢
          simp only [Option.some.injEq, Prod.mk.injEq] at hh
          exact ⟨_, _, rfl, hh.1 ▸ k.setSide u v rfl⟩
        · rw [if_neg hv] at hh ⊢
          split at hh
          · rename_i c0 c1 hf
            split at hh
            · simp at hh
            · rename_i h1 d0 e1
              obtain ⟨g1, d0', f1, k1⟩ := ih k e1
              split at hh
              · simp at hh
              · rename_i h2 d1 e2
                obtain ⟨g2, d1', f2, k2⟩ := ih k1 e2
                simp only [Option.some.injEq, Prod.mk.injEq] at hh
                simp only [f1, f2]
                exact ⟨_, _, rfl, hh.1 ▸ k2.setSide u v rfl⟩
          · simp at hh

theorem Lock.preprocess2 {fuel : Nat} {g h h' : Uct} {e : Nat × Nat} (k : Lock g h) (hh : Uct.preprocess2 fuel h e = some h') :
    ∃ g', Uct.preprocess2 fuel g e = some g' ∧ Lock g' h' := by
  unfold Uct.preprocess2 at hh ⊢
  split at hh
  · simp at hh
  · rename_i h1 s h2
    obtain ⟨g1, s1, f1, k1⟩ := k.preprocess h2
    rw [Option.map_eq_some_iff] at hh
    obtain ⟨⟨a, b⟩, h3, rfl⟩ := hh
    obtain ⟨g2, s2, f2, k2⟩ := k1.preprocess h3
    simp only [f1, f2]
    exact ⟨g2, rfl, k2⟩

theorem Lock.rootCost {g h : Uct} (k : Lock g h) : Lock g.computeRootCost h.computeRootCost :=
  ⟨(skel_rootCost _).trans (k.skel.trans (skel_rootCost _).symm), k.side⟩

theorem Lock.nodeCost {g h h' : Uct} {v : Nat} (k : Lock g h) (hh : h.computeNodeCost v = some h') :
    ∃ g', g.computeNodeCost v = some g' ∧ Lock g' h' := by
  unfold computeNodeCost at hh ⊢
  rw [k.skel.adj, k.skel.parent]
  split at hh
  · rename_i c0 c1 hf
    simp only [Option.some.injEq] at hh
    exact ⟨_, rfl, hh ▸ ⟨⟨k.skel.n, rfl, rfl, k.skel.root, k.skel.stem⟩, k.side⟩⟩
  · simp at hh

theorem Lock.moveBranch {g h : Uct} (k : Lock g h) (u c v : Nat) : Lock (g.moveBranch u c v) (h.moveBranch u c v) := by
  refine ⟨skel_move k.skel u c v, fun x y => ?_⟩
  have e : ∀ g : Uct, (g.moveBranch u c v).side =
      ((((g.addEdge v c).setSide v c ((g.addEdge v c).side u c)).setSide c v ((g.addEdge v c).side c u)).removeEdge u c).side := by
    intro g
    unfold Uct.moveBranch
    dsimp only
    split <;> split <;> split <;> rfl
  have e2 : ∀ g : Uct, (g.addEdge v c).side = g.side := by
    intro g
    unfold addEdge
    split <;> rfl
  rw [e, e]
  unfold removeEdge Uct.setSide
  simp only [e2]
  split
  · rfl
  · split
    · exact k.side _ _
    · split
      · exact k.side _ _
      · exact k.side _ _

theorem Lock.switchEdges {g h h' : Uct} (k : Lock g h) {u c0 v c1 : Nat} (hh : h.switchEdges u c0 v c1 = some h') :
    ∃ g', g.switchEdges u c0 v c1 = some g' ∧ Lock g' h' := by
  unfold Uct.switchEdges at hh ⊢
  rw [k.skel.adj, k.skel.n]
  split at hh
  · simp at hh
  · rename_i hc
    rw [if_neg hc]
    simp only at hh ⊢
    split at hh
    · simp at hh
    · rename_i h4 e4
      obtain ⟨g4, f4, k4⟩ := Lock.preprocess2 (((((k.moveBranch u c0 v).moveBranch v c1 u).setSide u v rfl).setSide v u rfl)) e4
      split at hh
      · simp at hh
      · rename_i h5 e5
        obtain ⟨g5, f5, k5⟩ := k4.nodeCost e5
        split at hh
        · simp at hh
        · rename_i h6 e6
          obtain ⟨g6, f6, k6⟩ := k5.nodeCost e6
          simp only [Option.some.injEq] at hh
          simp only [f4, f5, f6]
          refine ⟨_, rfl, ?_⟩
          rw [← hh, k6.skel.root]
          split
          · exact k6.rootCost
          · exact k6

theorem Lock.switchBranches {g h h' : Uct} (k : Lock g h) {i : Nat} (hh : h.switchBranches i = some h') :
    ∃ g', g.switchBranches i = some g' ∧ Lock g' h' := by
  unfold Uct.switchBranches at hh ⊢
  have e1 : g.stem4 i = h.stem4 i := by unfold stem4; rw [k.skel.stem]
  have e2 : ∀ u a b, g.third u a b = h.third u a b := fun u a b => by unfold third; rw [k.skel.adj]
  rw [e1]
  split at hh
  · simp at hh
  · rename_i t0 u v t1 h4
    simp only [e2]
    split at hh
    · rename_i c0 c1 f0 f1
      exact k.switchEdges hh
    · simp at hh

/-- The tree has the shape and the entries of one that is made by the methods of the class. -/
def Shadow (lhs : List (Finset Nat)) (rhs : Finset Nat) (g : Uct) : Prop := ∃ h, Reach lhs rhs h ∧ Lock g h

variable {lhs : List (Finset Nat)} {rhs : Finset Nat}

theorem Shadow.path {g : Uct} (h : Shadow lhs rhs g) :
    ∃ path, g.getPath = some path ∧ ValidPath lhs.length (path.map fun e => [e.1, e.2]) := by
  obtain ⟨h1, h2, h3⟩ := h
  obtain ⟨p, a1, a2, _⟩ := c57_path h2
  exact ⟨p, by rw [skel_getPath h3.skel, a1], a2⟩

theorem Shadow.switch {g : Uct} {i : Nat} (h : Shadow lhs rhs g) (h0 : 0 < i) (hi : i + 2 < g.stem.length) :
    ∃ g', g.switchBranches i = some g' ∧ Shadow lhs rhs g' ∧ g'.stem = g.stem := by
  obtain ⟨h1, h2, h3⟩ := h
  obtain ⟨⟨g1, a1, a2, a3⟩, _⟩ := c57_branches h2 h0 (by rw [← h3.skel.stem]; exact hi)
  obtain ⟨g', b1, b2⟩ := h3.switchBranches a1
  exact ⟨g', b1, ⟨g1, a2, b2⟩, by rw [b2.skel.stem, a3, h3.skel.stem]⟩

/-- What `preprocess_edge` stores if the entries behind are known. -/
def fresh (g : Uct) (u v : Nat) : Finset Nat := if v < g.n then g.sub v else ((g.nb v).erase u).biUnion (g.sd v)

/-- An entry that is missing is computed at once if the entries behind it are present. -/
theorem preprocess_fill {g h : Uct} (hI : h.Inv) (k : Skel g h) {u v : Nat} (hu : u < 2 * h.n - 2) (hv : v ∈ h.adj u)
    (h0 : g.side u v = none) (hs : ∀ c ∈ h.adj v, c ≠ u → (g.side v c).isSome) :
    preprocess (2 * g.n) g u v = some (g.setSide u v (some (g.fresh u v)), g.fresh u v) := by
  obtain ⟨_, _, hn⟩ := hI.nbrs hu
  obtain ⟨n1, n2, _⟩ := hn v hv
  obtain ⟨m1, m2, _⟩ := hI.nbrs n2
  have h2 := hI.two
  obtain ⟨f, hf⟩ : ∃ f, 2 * g.n = f + 2 := ⟨2 * g.n - 2, by rw [k.n]; omega⟩
  unfold fresh
  rw [hf]
  by_cases hl : v < g.n
  · rw [if_pos hl]
    unfold preprocess
    rw [h0]
    simp only [if_pos hl]
  · rw [if_neg hl]
    rw [if_neg (by rw [← k.n]; exact hl)] at m2
    exact preprocess_memo f h0 (by omega) (by rw [k.adj]; exact m1) (by rw [k.adj]; exact m2) (by rw [k.adj]; exact n1)
      (by rw [k.adj]; exact hs)

/-- Every entry of an edge is there. -/
def Full (g : Uct) : Prop := ∀ x, x < 2 * g.n - 2 → ∀ y ∈ g.adj x, (g.side x y).isSome

/-- slicer.py:117-120: clearing an edge and computing its entries again. -/
theorem refill {g h : Uct} (hI : h.Inv) (k : Skel g h) (hs : g.Full) {u v : Nat} (hu : u < 2 * h.n - 2) (hv : v ∈ h.adj u) :
    preprocess2 (2 * g.n) ((g.setSide u v none).setSide v u none) (u, v) =
      some ((((g.setSide u v none).setSide v u none).setSide u v (some (g.fresh u v))).setSide v u (some (g.fresh v u))) := by
  obtain ⟨_, _, hn⟩ := hI.nbrs hu
  obtain ⟨n1, n2, n3⟩ := hn v hv
  have k1 : Skel ((g.setSide u v none).setSide v u none) h := (skel_setSide ..).trans ((skel_setSide ..).trans k)
  have hs' : ∀ x, x < 2 * h.n - 2 → ∀ y ∈ h.adj x, (g.side x y).isSome := by
    intro x hx y hy
    exact hs x (by rw [k.n]; exact hx) y (by rw [k.adj]; exact hy)
  have e1 := preprocess_fill hI k1 hu hv (by simp [setSide]) fun c hc hcu => by
    simp only [setSide]
    rw [if_neg (by rintro ⟨_, rfl⟩; exact hcu rfl), if_neg (by rintro ⟨rfl, rfl⟩; exact n3 rfl)]
    exact hs' v n2 c hc
  have f1 : ((g.setSide u v none).setSide v u none).fresh u v = g.fresh u v := by
    unfold fresh
    refine if_congr Iff.rfl rfl ?_
    refine Finset.biUnion_congr rfl fun c hc => ?_
    rw [Finset.mem_erase] at hc
    simp only [sd, setSide]
    rw [if_neg (by rintro ⟨_, rfl⟩; exact hc.1 rfl), if_neg (by rintro ⟨rfl, rfl⟩; exact n3 rfl)]
  rw [f1] at e1
  have k2 : Skel (((g.setSide u v none).setSide v u none).setSide u v (some (g.fresh u v))) h := (skel_setSide ..).trans k1
  have e2 := preprocess_fill hI k2 n2 n1 (by simp [setSide, n3]) fun c hc hcu => by
    simp only [setSide]
    rw [if_neg (by rintro ⟨_, rfl⟩; exact hcu rfl), if_neg (by rintro ⟨rfl, rfl⟩; exact n3 rfl), if_neg (by rintro ⟨_, rfl⟩; exact hcu rfl)]
    exact hs' u hu c hc
  have f2 : (((g.setSide u v none).setSide v u none).setSide u v (some (g.fresh u v))).fresh v u = g.fresh v u := by
    generalize some (g.fresh u v) = q
    unfold fresh
    refine if_congr Iff.rfl rfl ?_
    refine Finset.biUnion_congr rfl fun c hc => ?_
    rw [Finset.mem_erase] at hc
    simp only [sd, setSide]
    rw [if_neg (by rintro ⟨_, rfl⟩; exact hc.1 rfl), if_neg (by rintro ⟨rfl, rfl⟩; exact n3 rfl), if_neg (by rintro ⟨_, rfl⟩; exact hc.1 rfl)]
  rw [f2] at e2
  unfold preprocess2
  have hn1 : ((g.setSide u v none).setSide v u none).n = g.n := rfl
  have hn2 : (((g.setSide u v none).setSide v u none).setSide u v (some (g.fresh u v))).n = g.n := rfl
  rw [hn1] at e1
  rw [hn2] at e2
  simp only [e1, e2, Option.map_some]

/-- The tree with the entries of one edge computed again. -/
def again (g : Uct) (u v : Nat) : Uct :=
  (((g.setSide u v none).setSide v u none).setSide u v (some (g.fresh u v))).setSide v u (some (g.fresh v u))

theorem again_skel (g : Uct) (u v : Nat) : Skel (g.again u v) g := ⟨rfl, rfl, rfl, rfl, rfl⟩

theorem again_side {g : Uct} {u v : Nat} (huv : u ≠ v) (x y : Nat) : (g.again u v).side x y =
    if x = u ∧ y = v then some (g.fresh u v) else if x = v ∧ y = u then some (g.fresh v u) else g.side x y := by
  simp only [again, setSide]
  by_cases h1 : x = u ∧ y = v
  · obtain ⟨rfl, rfl⟩ := h1
    simp [huv]
  · by_cases h2 : x = v ∧ y = u
    · obtain ⟨rfl, rfl⟩ := h2
      simp [h1]
    · simp [h1, h2]

theorem again_full {g h : Uct} (hI : h.Inv) (hs : g.Full) {u v : Nat} (hu : u < 2 * h.n - 2) (hv : v ∈ h.adj u) :
    (g.again u v).Full := by
  intro x hx y hy
  rw [again_side ((hI.nbrs hu).2.2 v hv).2.2.symm]
  split
  · rfl
  · split
    · rfl
    · exact hs x hx y hy

/-- The entries of a list of edges computed again, one after the other (slicer.py:116-120). -/
theorem refill_all {h : Uct} (hI : h.Inv) {N : Nat} (hN : N = h.n) : ∀ (l : List (Nat × Nat)) (g : Uct), Skel g h → g.Full →
    (∀ e ∈ l, e.1 < 2 * h.n - 2 ∧ e.2 ∈ h.adj e.1) →
    l.foldlM (fun h e => preprocess2 (2 * N) ((h.setSide e.1 e.2 none).setSide e.2 e.1 none) e) g =
      some (l.foldl (fun g e => g.again e.1 e.2) g) ∧
    (l.foldl (fun g e => g.again e.1 e.2) g).Full ∧ Skel (l.foldl (fun g e => g.again e.1 e.2) g) h ∧
    ∀ x y, ¬ (x < 2 * h.n - 2 ∧ y ∈ h.adj x) → (l.foldl (fun g e => g.again e.1 e.2) g).side x y = g.side x y
  | [], g, k, hs, _ => ⟨rfl, hs, k, fun _ _ _ => rfl⟩
  | e :: l, g, k, hs, hl => by
    obtain ⟨h1, h2⟩ := hl e List.mem_cons_self
    have e1 := refill hI k hs h1 h2
    rw [k.n, ← hN] at e1
    obtain ⟨a1, a2, a3, a4⟩ := refill_all hI hN l (g.again e.1 e.2) ((again_skel ..).trans k) (again_full hI hs h1 h2)
      fun e he => hl e (List.mem_cons_of_mem _ he)
    rw [List.foldlM_cons, e1]
    refine ⟨a1, a2, a3, fun x y hxy => ?_⟩
    rw [List.foldl_cons, a4 x y hxy]
    have hn := (hI.nbrs h1).2.2 _ h2
    rw [again_side hn.2.2.symm, if_neg (by rintro ⟨rfl, rfl⟩; exact hxy ⟨h1, h2⟩), if_neg (by rintro ⟨rfl, rfl⟩; exact hxy ⟨hn.2.1, hn.1⟩)]

theorem mem_edgeList {g : Uct} {e : Nat × Nat} (h : e ∈ g.edgeList) : e.1 < 2 * g.n - 2 ∧ e.2 ∈ g.adj e.1 ∧ e.1 < e.2 := by
  unfold edgeList at h
  simp only [List.mem_flatMap, List.mem_range, List.mem_map, List.mem_filter, decide_eq_true_eq] at h
  obtain ⟨u, hu, v, ⟨hv1, hv2⟩, rfl⟩ := h
  exact ⟨hu, hv1, hv2⟩

theorem Skel.edgeList {g h : Uct} (k : Skel g h) : g.edgeList = h.edgeList := by
  unfold Uct.edgeList
  rw [k.n, k.adj]

/-- The costs can be computed whenever the tree is in order. -/
theorem nodeCosts {h : Uct} (hI : h.Inv) : ∀ (l : List Nat) (g : Uct), Skel g h → (∀ v ∈ l, h.n ≤ v ∧ v < 2 * h.n - 2) →
    ∃ g', l.foldlM computeNodeCost g = some g' ∧ Skel g' h ∧ g'.side = g.side ∧ g'.sub = g.sub ∧ g'.opn = g.opn
  | [], g, k, _ => ⟨g, rfl, k, rfl, rfl, rfl⟩
  | v :: l, g, k, hl => by
    obtain ⟨h1, h2⟩ := hl v List.mem_cons_self
    obtain ⟨m1, m2, _⟩ := hI.nbrs h2
    rw [if_neg (by omega)] at m2
    have e1 := computeNodeCost_eq (g := g) (v := v) (by rw [k.adj]; exact m1) (by rw [k.adj]; exact m2)
      (by rw [k.adj, k.parent]; exact hI.parents.mem v h2)
    obtain ⟨g', a1, a2, a3⟩ := nodeCosts hI l _ ((skel_nodeCost e1).trans k) fun v hv => hl v (List.mem_cons_of_mem _ hv)
    refine ⟨g', ?_, a2, a3⟩
    rw [List.foldlM_cons, e1]
    exact a1

/-- A subscript can always be taken out. -/
theorem Shadow.remove {g : Uct} {s : Nat} (h : Shadow lhs rhs g) :
    ∃ g', g.removeSub s = some g' ∧ Shadow lhs rhs g' ∧ g'.stem = g.stem := by
  obtain ⟨h1, h2, h3⟩ := h
  have hI := h2.inv.1
  have hF : g.Full := fun x hx y hy => by
    rw [h3.side]
    exact hI.sides.some x y (by rw [← h3.skel.n]; exact hx) (by rw [← h3.skel.adj]; exact hy)
  let g1 : Uct := { g with sub := fun v => if v < g.n then g.sub v \ {s} else g.sub v }
  have k1 : Skel g1 h1 := ⟨h3.skel.n, h3.skel.adj, h3.skel.parent, h3.skel.root, h3.skel.stem⟩
  obtain ⟨a1, a2, a3, a4⟩ := refill_all hI h3.skel.n g1.edgeList g1 k1 hF fun e he => by
    rw [k1.edgeList] at he
    exact ⟨(mem_edgeList he).1, (mem_edgeList he).2.1⟩
  generalize g1.edgeList.foldl (fun g e => g.again e.1 e.2) g1 = g2 at a1 a2 a3 a4
  obtain ⟨g3, b1, b2, b3, _⟩ := nodeCosts hI (List.range' g.n (g.n - 2)) g2.computeRootCost ((skel_rootCost _).trans a3) fun v hv => by
    rw [List.mem_range'_1, h3.skel.n] at hv
    omega
  refine ⟨g3, ?_, ⟨h1, h2, ⟨b2, fun x y => ?_⟩⟩, by rw [b2.stem, h3.skel.stem]⟩
  · unfold removeSub
    simp only
    rw [a1]
    exact b1
  · have e3 : g3.side x y = g2.side x y := by rw [b3]; rfl
    rw [e3]
    by_cases hxy : x < 2 * h1.n - 2 ∧ y ∈ h1.adj x
    · rw [a2 x (by rw [a3.n]; exact hxy.1) y (by rw [a3.adj]; exact hxy.2), hI.sides.some x y hxy.1 hxy.2]
    · rw [a4 x y hxy]
      exact h3.side x y

/-! ## The loops at the ends of the range -/

theorem Shadow.all {l : List Nat} : ∀ {g : Uct}, Shadow lhs rhs g → (∀ i ∈ l, 0 < i ∧ i + 2 < g.stem.length) →
    ∃ g', g.switchAll l = some g' ∧ Shadow lhs rhs g' ∧ g'.stem = g.stem := by
  induction l with
  | nil => exact fun {g} h _ => ⟨g, rfl, h, rfl⟩
  | cons i l ih =>
    intro g h hl
    obtain ⟨g1, a1, a2, a3⟩ := h.switch (hl i List.mem_cons_self).1 (hl i List.mem_cons_self).2
    obtain ⟨g2, b1, b2, b3⟩ := ih a2 fun j hj => by rw [a3]; exact hl j (List.mem_cons_of_mem _ hj)
    refine ⟨g2, ?_, b2, b3.trans a3⟩
    unfold switchAll at b1 ⊢
    rw [List.foldlM_cons, a1]
    exact b1

theorem Shadow.tryLeft {ii : Nat} {ks : List Nat} {cur : Int} : ∀ {g : Uct}, Shadow lhs rhs g → (∀ k ∈ ks, 0 < k) → ii + 1 < g.stem.length →
    ∃ r, Uct.tryLeft ii ks cur g = some r ∧ Shadow lhs rhs r.1 ∧ r.1.stem = g.stem := by
  induction ks with
  | nil => exact fun {g} h _ _ => ⟨_, rfl, h, rfl⟩
  | cons k ks ih =>
    intro g h hk hi
    have hb : ∀ i ∈ List.range' k (ii - k), 0 < i ∧ i + 2 < g.stem.length := fun i hi => by
      have := hk k List.mem_cons_self
      rw [List.mem_range'_1] at hi
      omega
    obtain ⟨g1, a1, a2, a3⟩ := h.all hb
    unfold Uct.tryLeft
    simp only [a1]
    split
    · exact ⟨_, rfl, a2, a3⟩
    · obtain ⟨g2, b1, b2, b3⟩ := a2.all (l := (List.range' k (ii - k)).reverse) fun i hi => by
        rw [a3]; exact hb i (List.mem_reverse.1 hi)
      simp only [b1]
      obtain ⟨r, c1, c2, c3⟩ := ih b2 (fun k hk' => hk k (List.mem_cons_of_mem _ hk')) (by rw [b3, a3]; exact hi)
      exact ⟨r, c1, c2, c3.trans (b3.trans a3)⟩

theorem Shadow.sinkLeft {ii : Nat} : ∀ {cur : Int} {g : Uct}, Shadow lhs rhs g → ii + 1 < g.stem.length →
    ∃ r, Uct.sinkLeft ii cur g = some r ∧ Shadow lhs rhs r.1 ∧ r.1.stem = g.stem ∧ r.2.1 ≤ ii := by
  induction ii with
  | zero => exact fun {cur g} h _ => ⟨_, rfl, h, rfl, le_refl _⟩
  | succ ii ih =>
    intro cur g h hi
    unfold Uct.sinkLeft
    split
    · obtain ⟨⟨g1, b, cur1⟩, a1, a2, a3⟩ := h.tryLeft (ii := ii + 1) (ks := (List.range' 3 (ii + 1 - 3)).reverse) (cur := cur)
        (fun k hk => by rw [List.mem_reverse, List.mem_range'_1] at hk; omega) hi
      cases b with
      | true =>
        simp only [a1]
        obtain ⟨r, c1, c2, c3, c4⟩ := ih a2 (cur := cur1) (by rw [a3]; omega)
        exact ⟨r, c1, c2, c3.trans a3, by omega⟩
      | false =>
        simp only [a1]
        exact ⟨_, rfl, a2, a3, le_refl _⟩
    · exact ⟨_, rfl, h, rfl, le_refl _⟩

/-- `Q` holds of the position given back by the sweep: it is one of those visited, or the one at the start. -/
theorem Shadow.sweep {ks : List Nat} : ∀ {best : Nat} {cur : Int} {g : Uct}, Shadow lhs rhs g →
    (∀ k ∈ ks, 0 < k ∧ k + 2 < g.stem.length) →
    ∃ r, Uct.sweep ks best cur g = some r ∧ Shadow lhs rhs r.1 ∧ r.1.stem = g.stem ∧ (r.2.1 = best ∨ r.2.1 ∈ ks) := by
  induction ks with
  | nil => exact fun {best cur g} h _ => ⟨_, rfl, h, rfl, Or.inl rfl⟩
  | cons k ks ih =>
    intro best cur g h hk
    obtain ⟨g1, a1, a2, a3⟩ := h.switch (hk k List.mem_cons_self).1 (hk k List.mem_cons_self).2
    unfold Uct.sweep
    simp only [a1]
    have hk' : ∀ k ∈ ks, 0 < k ∧ k + 2 < g1.stem.length := fun j hj => by rw [a3]; exact hk j (List.mem_cons_of_mem _ hj)
    split
    · obtain ⟨r, b1, b2, b3, b4⟩ := ih (best := k) (cur := g1.cost) a2 hk'
      refine ⟨r, b1, b2, b3.trans a3, Or.inr ?_⟩
      rcases b4 with b4 | b4
      · rw [b4]; exact List.mem_cons_self
      · exact List.mem_cons_of_mem _ b4
    · obtain ⟨r, b1, b2, b3, b4⟩ := ih (best := best) (cur := cur) a2 hk'
      exact ⟨r, b1, b2, b3.trans a3, b4.imp id (List.mem_cons_of_mem _)⟩

theorem Shadow.left {fuel : Nat} : ∀ {i : Nat} {cur : Int} {g : Uct}, Shadow lhs rhs g → i + 2 < g.stem.length → i < fuel →
    ∃ r, leftLoop fuel i cur g = some r ∧ Shadow lhs rhs r.1 ∧ r.1.stem = g.stem := by
  induction fuel with
  | zero => intro i cur g _ _ h; omega
  | succ fuel ih =>
    intro i cur g h hi hf
    unfold leftLoop
    split
    · obtain ⟨⟨g1, ii, cur1⟩, a1, a2, a3, a4⟩ := h.sinkLeft (ii := i) (cur := cur) (by omega)
      simp only [a1]
      dsimp only at a2 a3 a4
      obtain ⟨⟨g2, ii2, cur2⟩, b1, b2, b3, b4⟩ := a2.sweep (ks := (List.range' 6 (ii - 5)).reverse) (best := ii + 1) (cur := cur1) fun k hk => by
        rw [List.mem_reverse, List.mem_range'_1] at hk
        rw [a3]
        omega
      simp only [b1]
      dsimp only at b2 b3 b4
      have hb : ii2 ≤ ii + 1 := by
        rcases b4 with b4 | b4
        · omega
        · rw [List.mem_reverse, List.mem_range'_1] at b4
          omega
      obtain ⟨g3, c1, c2, c3⟩ := b2.all (l := List.range' 6 (ii2 - 6)) fun k hk => by
        rw [List.mem_range'_1] at hk
        rw [b3, a3]
        omega
      simp only [c1]
      have e : g3.stem = g.stem := c3.trans (b3.trans a3)
      split
      · exact ⟨_, rfl, c2, e⟩
      · obtain ⟨r, d1, d2, d3⟩ := ih (i := ii2) (cur := cur2) c2 (by rw [e]; omega) (by omega)
        exact ⟨r, d1, d2, d3.trans e⟩
    · exact ⟨_, rfl, h, rfl⟩

theorem Shadow.tryRight {jj : Nat} {ks : List Nat} {cur : Int} (h0 : 0 < jj) : ∀ {g : Uct}, Shadow lhs rhs g → (∀ k ∈ ks, k + 1 < g.stem.length) →
    ∃ r, Uct.tryRight jj ks cur g = some r ∧ Shadow lhs rhs r.1 ∧ r.1.stem = g.stem := by
  induction ks with
  | nil => exact fun {g} h _ => ⟨_, rfl, h, rfl⟩
  | cons k ks ih =>
    intro g h hk
    have hb : ∀ i ∈ List.range' jj (k - jj), 0 < i ∧ i + 2 < g.stem.length := fun i hi => by
      have := hk k List.mem_cons_self
      rw [List.mem_range'_1] at hi
      omega
    obtain ⟨g1, a1, a2, a3⟩ := h.all (l := (List.range' jj (k - jj)).reverse) fun i hi => hb i (List.mem_reverse.1 hi)
    unfold Uct.tryRight
    simp only [a1]
    split
    · exact ⟨_, rfl, a2, a3⟩
    · obtain ⟨g2, b1, b2, b3⟩ := a2.all (l := List.range' jj (k - jj)) (by rw [a3]; exact hb)
      simp only [b1]
      obtain ⟨r, c1, c2, c3⟩ := ih b2 (fun k hk' => by rw [b3, a3]; exact hk k (List.mem_cons_of_mem _ hk'))
      exact ⟨r, c1, c2, c3.trans (b3.trans a3)⟩

theorem Shadow.sinkRight {fuel : Nat} : ∀ {jj : Nat} {cur : Int} {g : Uct}, 0 < jj → Shadow lhs rhs g → g.stem.length < fuel + jj → jj ≤ g.stem.length →
    ∃ r, Uct.sinkRight fuel jj cur g = some r ∧ Shadow lhs rhs r.1 ∧ r.1.stem = g.stem ∧ jj ≤ r.2.1 ∧ r.2.1 ≤ g.stem.length := by
  induction fuel with
  | zero => intro jj cur g _ _ h1 h2; omega
  | succ fuel ih =>
    intro jj cur g h0 h hf hj
    unfold Uct.sinkRight
    split
    · obtain ⟨⟨g1, b, cur1⟩, a1, a2, a3⟩ := h.tryRight (jj := jj) (ks := List.range' (jj + 1) (g.stem.length - 1 - (jj + 1))) (cur := cur) h0
        (fun k hk => by rw [List.mem_range'_1] at hk; omega)
      cases b with
      | true =>
        simp only [a1]
        obtain ⟨r, c1, c2, c3, c4, c5⟩ := ih (by omega : 0 < jj + 1) a2 (cur := cur1) (by rw [a3]; omega) (by rw [a3]; omega)
        exact ⟨r, c1, c2, c3.trans a3, by omega, a3 ▸ c5⟩
      | false =>
        simp only [a1]
        exact ⟨_, rfl, a2, a3, le_refl _, hj⟩
    · exact ⟨_, rfl, h, rfl, le_refl _, hj⟩

theorem Shadow.right {fuel : Nat} : ∀ {j : Nat} {cur : Int} {g : Uct}, 0 < j → Shadow lhs rhs g → g.stem.length < fuel + j → j ≤ g.stem.length →
    ∃ r, rightLoop fuel j cur g = some r ∧ Shadow lhs rhs r.1 ∧ r.1.stem = g.stem := by
  induction fuel with
  | zero => intro j cur g _ _ h1 h2; omega
  | succ fuel ih =>
    intro j cur g h0 h hf hj
    unfold rightLoop
    split
    · obtain ⟨⟨g1, jj, cur1⟩, a1, a2, a3, a4, a5⟩ := h.sinkRight (fuel := g.stem.length + 1) (jj := j) (cur := cur) h0 (by omega) (by omega)
      simp only [a1]
      dsimp only at a2 a3 a4 a5
      obtain ⟨⟨g2, jj2, cur2⟩, b1, b2, b3, b4⟩ := a2.sweep (ks := List.range' jj (g1.stem.length - 5 - jj)) (best := jj - 1) (cur := cur1) fun k hk => by
        rw [List.mem_range'_1] at hk
        omega
      simp only [b1]
      dsimp only at b2 b3 b4
      have hb : jj ≤ jj2 + 1 := by
        rcases b4 with b4 | b4
        · omega
        · rw [List.mem_range'_1] at b4
          omega
      obtain ⟨g3, c1, c2, c3⟩ := b2.all (l := (List.range' (jj2 + 1) (g2.stem.length - 5 - (jj2 + 1))).reverse) fun k hk => by
        rw [List.mem_reverse, List.mem_range'_1] at hk
        omega
      simp only [c1]
      have e : g3.stem = g.stem := c3.trans (b3.trans a3)
      split
      · exact ⟨_, rfl, c2, e⟩
      · rename_i h3
        obtain ⟨r, d1, d2, d3⟩ := ih (j := jj2) (cur := cur2) (by omega) c2 (by rw [e]; omega) (by
          rw [e, ← a3]
          rcases b4 with b4 | b4
          · rw [a3]; omega
          · rw [List.mem_range'_1] at b4
            omega)
        exact ⟨r, d1, d2, d3.trans e⟩
    · exact ⟨_, rfl, h, rfl⟩

/-- slicer.py:112-190 never fails for a range on the stem. -/
theorem Shadow.without {g : Uct} {s : Nat × Nat × Nat} (h : Shadow lhs rhs g) (h1 : s.2.1 < s.2.2) (h2 : s.2.2 + 1 < g.stem.length) :
    ∃ r, g.without s = some r ∧ Shadow lhs rhs r.1 ∧ r.1.stem = g.stem := by
  obtain ⟨g1, a1, a2, a3⟩ := h.remove (s := s.1)
  obtain ⟨⟨g2, cur⟩, b1, b2, b3⟩ := a2.left (fuel := s.2.1 + 1) (i := s.2.1) (cur := g1.cost) (by rw [a3]; omega) (by omega)
  dsimp only at b2 b3
  have e := b3.trans a3
  obtain ⟨r, c1, c2, c3⟩ := b2.right (fuel := g2.stem.length + 1) (j := s.2.2) (cur := cur) (by omega) (by omega) (by rw [e]; omega)
  refine ⟨r, ?_, c2, c3.trans e⟩
  unfold Uct.without
  simp only [a1, b1]
  exact c1

end Uct

end Verif
