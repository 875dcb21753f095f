import Verif.Lemmas.UctInit
/-!
# `UndirectedContractionTree`: the constructor, from the tree to the costs
-/

namespace Verif

open UT

namespace Uct

theorem More.tree {g g' : Uct} (h : More g g') (ht : g.Tree) : g'.Tree := by
  obtain ⟨Tu, Tv, hc⟩ := ht
  refine ⟨Tu, Tv, ?_⟩
  rw [h.eq]
  exact hc

/-- One direction of an edge. -/
theorem preprocess_edge {g : Uct} (h : g.Memo) (hT : g.Tree) {x y : Nat} (hx : x < 2 * g.n - 2) (hy : y ∈ g.adj x) :
    ∃ g' s, preprocess (2 * g.n) g x y = some (g', s) ∧ g'.Memo ∧ More g g' ∧ g'.side x y = some s := by
  obtain ⟨_, _, hc⟩ := id hT
  obtain ⟨Tx, Ty, hc'⟩ := hc.move hx hy
  have hlen := hc'.perm.length_eq
  rw [List.length_append, List.length_range] at hlen
  have := preprocess_spec h hT hc'.sv hx (fun z hz => hc'.mem.2 (Or.inr hz)) (fuel := 2 * g.n) (by omega)
  rwa [hc'.tv] at this

theorem preprocess2_spec {g : Uct} (h : g.Memo) (hT : g.Tree) {x y : Nat} (hx : x < 2 * g.n - 2) (hy : y ∈ g.adj x) :
    ∃ g', preprocess2 (2 * g.n) g (x, y) = some g' ∧ g'.Memo ∧ More g g' ∧ (g'.side x y).isSome ∧ (g'.side y x).isSome := by
  obtain ⟨_, _, hc⟩ := id hT
  have hn := (hc.nbrs hx).2.2 y hy
  obtain ⟨g1, s, a1, a2, a3, a4⟩ := preprocess_edge h hT hx hy
  obtain ⟨g2, s', b1, b2, b3, b4⟩ := preprocess_edge a2 (a3.tree hT) (x := y) (y := x) (by rw [a3.n]; exact hn.2.1) (by rw [a3.adj]; exact hn.1)
  refine ⟨g2, ?_, b2, a3.trans b3, ?_, by rw [b4]; rfl⟩
  · unfold preprocess2
    simp only [a1]
    rw [a3.n] at b1
    rw [b1]
    rfl
  · rw [b3.keep _ _ _ a4]
    rfl

theorem edges_spec : ∀ (es : List (Nat × Nat)) {g : Uct}, g.Memo → g.Tree → (∀ e ∈ es, e.1 < 2 * g.n - 2 ∧ e.2 ∈ g.adj e.1) →
    ∃ g', es.foldlM (fun g' e => preprocess2 (2 * g.n) g' e) g = some g' ∧ g'.Memo ∧ More g g' ∧
      ∀ e ∈ es, (g'.side e.1 e.2).isSome ∧ (g'.side e.2 e.1).isSome := by
  intro es
  induction es with
  | nil => intro g h _ _; exact ⟨g, rfl, h, More.refl g, by simp⟩
  | cons e es ih =>
    intro g h hT he
    obtain ⟨g1, a1, a2, a3, a4, a5⟩ := preprocess2_spec h hT (he e (by simp)).1 (he e (by simp)).2
    obtain ⟨g2, b1, b2, b3, b4⟩ := ih a2 (a3.tree hT) (fun e' he' => by
      rw [a3.n, a3.adj]
      exact he e' (by simp [he']))
    refine ⟨g2, ?_, b2, a3.trans b3, ?_⟩
    · rw [List.foldlM_cons, a1]
      rw [a3.n] at b1
      exact b1
    · intro e' he'
      rcases List.mem_cons.1 he' with rfl | he'
      · constructor
        · obtain ⟨s, hs⟩ := Option.isSome_iff_exists.1 a4
          rw [b3.keep _ _ _ hs]; rfl
        · obtain ⟨s, hs⟩ := Option.isSome_iff_exists.1 a5
          rw [b3.keep _ _ _ hs]; rfl
      · exact b4 e' he'

/-- After the loop over the edges everything is stored. -/
theorem edgeList_spec {g : Uct} (hT : g.Tree) (h0 : ∀ x y, g.side x y = none) :
    ∃ g', g.edgeList.foldlM (fun g' e => preprocess2 (2 * g.n) g' e) g = some g' ∧ g'.Sides ∧ More g g' := by
  obtain ⟨_, _, hc⟩ := id hT
  have hmem : ∀ x y, (x, y) ∈ g.edgeList ↔ x < 2 * g.n - 2 ∧ y ∈ g.adj x ∧ x < y := by
    intro x y
    unfold edgeList
    simp only [List.mem_flatMap, List.mem_range, List.mem_map, List.mem_filter, decide_eq_true_eq, Prod.mk.injEq]
    constructor
    · rintro ⟨a, h1, b, h2, rfl, rfl⟩
      exact ⟨h1, h2⟩
    · rintro ⟨h1, h2⟩
      exact ⟨x, h1, y, h2, rfl, rfl⟩
  obtain ⟨g', a1, a2, a3, a4⟩ := edges_spec g.edgeList (g := g) (fun x y _ _ s hs => by rw [h0] at hs; simp at hs) hT
    (fun e he => by
      obtain ⟨x, y⟩ := e
      have := (hmem x y).1 he
      exact ⟨this.1, this.2.1⟩)
  have hsome : ∀ x y, x < 2 * g'.n - 2 → y ∈ g'.adj x → (g'.side x y).isSome := by
    intro x y hx hy
    rw [a3.n] at hx
    rw [a3.adj] at hy
    have hn := (hc.nbrs hx).2.2 y hy
    rcases Nat.lt_or_ge x y with hxy | hxy
    · exact (a4 (x, y) ((hmem x y).2 ⟨hx, hy, hxy⟩)).1
    · exact (a4 (y, x) ((hmem y x).2 ⟨hn.2.1, hn.1, by omega⟩)).2
  refine ⟨g', a1, ⟨hsome, ?_, ?_⟩, a3⟩
  · intro x y hx hy hl
    obtain ⟨s, hs⟩ := Option.isSome_iff_exists.1 (hsome x y hx hy)
    unfold sd
    rw [hs]
    exact (a2 x y hx hy s hs).1 hl
  · intro x y hx hy hl
    obtain ⟨s, hs⟩ := Option.isSome_iff_exists.1 (hsome x y hx hy)
    have := ((a2 x y hx hy s hs).2 hl).2
    rw [show g'.sd x y = s by unfold sd; rw [hs]; rfl]
    exact this

/-- The costs of the contractions are computed one after the other. -/
theorem nodes_spec : ∀ (k a : Nat) {g : Uct}, (∀ y, a ≤ y → y < a + k → (g.adj y).Nodup ∧ (g.adj y).length = 3 ∧ g.parent y ∈ g.adj y) →
    g.Total → g.n ≤ a → a + k = 2 * g.n - 2 → (∀ y, g.n ≤ y → y < a → g.ncost y = some (g.vcost y)) →
    ∃ g', (List.range' a k).foldlM computeNodeCost g = some g' ∧ g' = { g with ncost := g'.ncost, cost := g'.cost } ∧ g'.Total ∧
      ∀ y, g.n ≤ y → y < a + k → g'.ncost y = some (g'.vcost y) := by
  intro k
  induction k with
  | zero => intro a g _ hT _ _ hy; exact ⟨g, rfl, rfl, hT, by simpa using hy⟩
  | succ k ih =>
    intro a g hadj hT ha hk hy
    obtain ⟨x1, x2, x3⟩ := hadj a (Nat.le_refl a) (by omega)
    have hcn := computeNodeCost_eq x1 x2 x3
    have hT' := total_node hT ha (by omega) hcn
    obtain ⟨g2, b1, b2, b3, b4⟩ := ih (a + 1) (g := { g with cost := g.cost - ((g.ncost a).getD 0 : Nat) + g.vcost a, ncost := put g.ncost a (some (g.vcost a)) })
      (fun y h1 h2 => hadj y (by omega) (by omega)) hT' (show g.n ≤ a + 1 by omega) (show a + 1 + k = 2 * g.n - 2 by omega) (by
        intro y h1 h2
        show put g.ncost a (some (g.vcost a)) y = some (g.vcost y)
        by_cases he : y = a
        · rw [he, put_same]
        · rw [put_ne he]
          exact hy y h1 (by omega))
    refine ⟨g2, ?_, b2, b3, fun y h1 h2 => b4 y h1 (by omega)⟩
    rw [List.range'_succ, List.foldlM_cons, hcn]
    exact b1

end Uct

end Verif
