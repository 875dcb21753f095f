import Verif.Lemmas.UctStem
import Mathlib.Tactic.Ring
/-!
# `UndirectedContractionTree`: the cost of a new tree is the cost of the path it was made from
-/

namespace Verif

open UT

namespace Uct

theorem Inv.sb_leaf {g : Uct} (h : g.Inv) {x : Nat} (hx : x < g.n) : g.sb x = g.sub x := by
  have hx2 : x < 2 * g.n - 2 := by have := h.two; omega
  have hm := h.parents.mem x hx2
  have hm' := (h.nbrs hx2).2.2 _ hm
  unfold sb
  rw [h.sides.leaf _ x hm'.2.1 hm'.1 hx]

/-- Beyond an edge are the subscripts of the operands there. -/
theorem Inv.sd_sub {g : Uct} (h : g.Inv) {p : Nat} {T : UT} (hs : Shape g.n g.adj p T) (hp : p < 2 * g.n - 2)
    (hl : ∀ x ∈ T.labels, x < 2 * g.n - 2) : g.sd p T.top = T.leaves.toFinset.biUnion g.sub := by
  induction T generalizing p with
  | leaf v =>
    show g.sd p v = ([v] : List Nat).toFinset.biUnion g.sub
    simp only [List.toFinset_cons, List.toFinset_nil, insert_empty_eq, Finset.singleton_biUnion]
    exact h.sides.leaf p v hp ((h.nbrs (hl v (by simp [labels]))).2.2 p (by rw [hs.2]; simp)).1 hs.1
  | node v l r ihl ihr =>
    have hv : v < 2 * g.n - 2 := hl v (by simp [labels])
    have hn := h.sides_node hs hp hl
    show g.sd p v = _
    rw [hn.1, ihl hs.2.2.1 hv (fun x hx => hl x (by simp [labels, hx])), ihr hs.2.2.2 hv (fun x hx => hl x (by simp [labels, hx]))]
    rw [leaves, List.toFinset_append, Finset.union_biUnion]

/-- A tree of a forest within the tree. -/
def Within (g : Uct) (T : UT) : Prop := ∃ p Tp, Cut g.n g.adj T.top p T Tp ∧ Par g.parent p T

theorem Within.left {g : Uct} {t : Nat} {A B : UT} (h : g.Within (.node t A B)) : g.Within A ∧ g.Within B := by
  obtain ⟨p, Tp, hc, hp⟩ := h
  exact ⟨⟨t, _, hc.step, hp.2.1⟩, ⟨t, _, hc.swap.step, hp.2.2⟩⟩

theorem mem_flat_leaves {Ts : List UT} {x : Nat} : x ∈ Ts.flatMap leaves ↔ ∃ T ∈ Ts, x ∈ T.leaves := List.mem_flatMap

theorem flat_leaves_eraseIdx {Ts : List UT} {i : Nat} (hi : i < Ts.length) :
    (Ts[i].leaves ++ (Ts.eraseIdx i).flatMap leaves).Perm (Ts.flatMap leaves) := by
  have := (List.getElem_cons_eraseIdx_perm hi).flatMap_right leaves
  rwa [List.flatMap_cons] at this

theorem flat_inner_eraseIdx {Ts : List UT} {i : Nat} (hi : i < Ts.length) :
    (Ts[i].inner ++ (Ts.eraseIdx i).flatMap inner).Perm (Ts.flatMap inner) := by
  have := (List.getElem_cons_eraseIdx_perm hi).flatMap_right inner
  rwa [List.flatMap_cons] at this

/-- One contraction of a forest within the tree. -/
theorem Inv.merge {g : Uct} (h : g.Inv) {t : Nat} {A B : UT} {R : List UT} (hW : ∀ T ∈ R ++ [UT.node t A B], g.Within T)
    (hL : ((R ++ [UT.node t A B]).flatMap leaves).Perm (List.range g.n)) :
    (g.red A.top ∪ g.red B.top) ∩ (indexUnion (R.map fun T => g.red T.top) ∪ g.opn) = g.red t ∧
    contractionCost (g.red A.top) (g.red B.top) (g.red t) = g.vcost t := by
  obtain ⟨p, Tp, hc, hp⟩ := hW (.node t A B) (by simp)
  have hadj := hc.adjacent
  have hl : ∀ x ∈ (UT.node t A B).labels, x < 2 * g.n - 2 := fun x hx => hc.mem.2 (Or.inl hx)
  have hnd := hL.nodup_iff.2 List.nodup_range
  rw [List.flatMap_append, List.flatMap_cons, List.flatMap_nil, List.append_nil] at hL hnd
  -- the operands beyond each vertex
  have compl : ∀ {T Tp : UT} {p : Nat}, Cut g.n g.adj T.top p T Tp → ∀ x, x ∈ Tp.leaves ↔ x < g.n ∧ x ∉ T.leaves := by
    intro T Tp p hc x
    obtain ⟨q1, _, _⟩ := cut_leaves h.two hc
    have hn := q1.nodup_iff.2 List.nodup_range
    rw [List.nodup_append'] at hn
    constructor
    · intro hx
      exact ⟨List.mem_range.1 (q1.subset (List.mem_append_right _ hx)), fun hx' => hn.2.2 hx' hx⟩
    · rintro ⟨h1, h2⟩
      rcases List.mem_append.1 (q1.symm.subset (List.mem_range.2 h1)) with h3 | h3
      · exact absurd h3 h2
      · exact h3
  have sbT : ∀ T ∈ R, g.sb T.top = T.leaves.toFinset.biUnion g.sub := by
    intro T hT
    obtain ⟨q, Tq, hcq, hpq⟩ := hW T (by simp [hT])
    unfold sb
    rw [hpq.top]
    exact h.sd_sub hcq.su hcq.adjacent.2.2.2.1 (fun x hx => hcq.mem.2 (Or.inl hx))
  have H : g.sd t p = (R.map top).toFinset.biUnion g.sb := by
    have e := h.sd_sub hc.sv hadj.2.2.1 (fun x hx => hc.mem.2 (Or.inr hx))
    rw [hc.tv] at e
    change g.sd t p = _ at e
    rw [e]
    ext a
    simp only [Finset.mem_biUnion, List.mem_toFinset, List.mem_map, exists_exists_and_eq_and]
    constructor
    · rintro ⟨x, hx, hax⟩
      obtain ⟨h1, h2⟩ := (compl hc x).1 hx
      rcases List.mem_append.1 (hL.symm.subset (List.mem_range.2 h1)) with h3 | h3
      · obtain ⟨T, hT, hxT⟩ := mem_flat_leaves.1 h3
        refine ⟨T, hT, ?_⟩
        rw [sbT T hT, Finset.mem_biUnion]
        exact ⟨x, List.mem_toFinset.2 hxT, hax⟩
      · exact absurd h3 h2
    · rintro ⟨T, hT, ha⟩
      rw [sbT T hT, Finset.mem_biUnion] at ha
      obtain ⟨x, hx, hax⟩ := ha
      rw [List.mem_toFinset] at hx
      have hxR : x ∈ R.flatMap leaves := mem_flat_leaves.2 ⟨T, hT, hx⟩
      exact ⟨x, (compl hc x).2 ⟨List.mem_range.1 (hL.subset (List.mem_append_left _ hxR)),
        fun hx' => (List.nodup_append'.1 hnd).2.2 hxR hx'⟩, hax⟩
  have K : ∀ y ∈ R.map top, g.sd p t ⊆ g.ou y := by
    intro y hy
    obtain ⟨T, hT, rfl⟩ := List.mem_map.1 hy
    obtain ⟨q, Tq, hcq, hpq⟩ := hW T (by simp [hT])
    have e1 := h.sd_sub hc.su hadj.2.2.2.1 hl
    change g.sd p t = _ at e1
    have e2 := h.sd_sub hcq.sv hcq.adjacent.2.2.1 (fun x hx => hcq.mem.2 (Or.inr hx))
    rw [hcq.tv] at e2
    unfold ou
    rw [hpq.top, e1, e2]
    apply Finset.biUnion_subset_biUnion_of_subset_left
    intro x hx
    rw [List.mem_toFinset] at hx ⊢
    refine (compl hcq x).2 ⟨List.mem_range.1 (hL.subset (List.mem_append_right _ hx)), fun hx' => ?_⟩
    exact (List.nodup_append'.1 hnd).2.2 (mem_flat_leaves.2 ⟨T, hT, hx'⟩) hx
  have := h.keep hc.su hp hadj.2.2.2.1 hl H K
  rwa [List.map_map] at this

theorem contractionCost_comm (s t k : Finset Nat) : contractionCost s t k = contractionCost t s k := by
  unfold contractionCost
  rw [Finset.union_comm]

/-- The loop over the path: the costs of the contractions made. -/
theorem Inv.loop {g : Uct} (h : g.Inv) : ∀ (path : List (Nat × Nat)) (Ts : List UT) (t : Nat),
    (∃ q : List (Nat × Nat), ValidPath Ts.length ((path ++ q).map fun e => [e.1, e.2])) →
    (∀ T ∈ mergeLoop path Ts t, g.Within T) → ((mergeLoop path Ts t).flatMap leaves).Perm (List.range g.n) →
    (∀ T ∈ Ts, g.Within T) ∧ (Ts.flatMap leaves).Perm (List.range g.n) ∧
    ∀ q, pathCost g.opn (Ts.map fun T => g.red T.top) (path ++ q) + ((Ts.flatMap inner).map g.vcost).sum =
      (((mergeLoop path Ts t).flatMap inner).map g.vcost).sum + pathCost g.opn ((mergeLoop path Ts t).map fun T => g.red T.top) q := by
  intro path
  induction path with
  | nil => intro Ts t _ hW hL; exact ⟨hW, hL, fun q => Nat.add_comm _ _⟩
  | cons e path ih =>
    intro Ts t hv hW hL
    obtain ⟨i, j⟩ := e
    obtain ⟨q0, hv⟩ := hv
    obtain ⟨k, hk, hi, hj, hij, hv'⟩ := validPath_pair hv
    have hmax : max i j < Ts.length := by omega
    have hmin : min i j < (Ts.eraseIdx (max i j)).length := by
      rw [List.length_eraseIdx_of_lt hmax]
      omega
    rw [mergeLoop, getD_lt hmax, getD_lt hmin] at hW hL ⊢
    set B := Ts[max i j] with hB
    set A := (Ts.eraseIdx (max i j))[min i j] with hA
    set R := (Ts.eraseIdx (max i j)).eraseIdx (min i j) with hR
    have hlenR : (R ++ [UT.node t A B]).length = k := by
      rw [List.length_append, hR, List.length_eraseIdx_of_lt hmin, List.length_eraseIdx_of_lt hmax]
      have := List.length_eraseIdx_of_lt hmax
      simp only [List.length_cons, List.length_nil]
      omega
    obtain ⟨w1, w2, w3⟩ := ih (R ++ [UT.node t A B]) (t + 1) ⟨q0, by rw [hlenR]; exact hv'⟩ hW hL
    have hm := h.merge w1 w2
    have wAB := (w1 (.node t A B) (by simp)).left
    have p1 : (B :: A :: R).Perm Ts := by
      refine (List.Perm.cons B (List.getElem_cons_eraseIdx_perm hmin)).trans (List.getElem_cons_eraseIdx_perm hmax)
    refine ⟨?_, ?_, ?_⟩
    · intro T hT
      have := p1.symm.subset hT
      simp only [List.mem_cons] at this
      rcases this with rfl | rfl | hT
      · exact wAB.2
      · exact wAB.1
      · exact w1 T (by simp [hT])
    · refine ((p1.symm.flatMap_right leaves).trans ?_).trans w2
      rw [List.flatMap_cons, List.flatMap_cons, List.flatMap_append, List.flatMap_cons, List.flatMap_nil, List.append_nil]
      refine List.Perm.trans ?_ List.perm_append_comm
      rw [← List.append_assoc, leaves]
      exact List.perm_append_comm.append_right _
    · intro q
      rw [List.cons_append, pathCost]
      have e1 : (Ts.map fun T => g.red T.top).eraseIdx (max i j) = (Ts.eraseIdx (max i j)).map fun T => g.red T.top := List.eraseIdx_map ..
      have e2 : ((Ts.map fun T => g.red T.top).eraseIdx (max i j)).eraseIdx (min i j) = R.map fun T => g.red T.top := by
        rw [e1, List.eraseIdx_map]
      have eB : (Ts.map fun T => g.red T.top).getD (max i j) ∅ = g.red B.top := by
        rw [getD_lt (by simpa using hmax), List.getElem_map]
      have eA : (Ts.map fun T => g.red T.top).getD (min i j) ∅ = g.red A.top := by
        have hlt : min i j < max i j := by omega
        rw [getD_lt (by rw [List.length_map]; omega), List.getElem_map, hA, List.getElem_eraseIdx_of_lt _ hlt]
      have hs : ((Ts.map fun T => g.red T.top).getD i ∅) ∪ ((Ts.map fun T => g.red T.top).getD j ∅) = g.red A.top ∪ g.red B.top := by
        rcases Nat.lt_or_gt_of_ne hij with hlt | hlt
        · rw [Nat.max_eq_right (Nat.le_of_lt hlt)] at eB
          rw [Nat.min_eq_left (Nat.le_of_lt hlt)] at eA
          rw [eA, eB]
        · rw [Nat.max_eq_left (Nat.le_of_lt hlt)] at eB
          rw [Nat.min_eq_right (Nat.le_of_lt hlt)] at eA
          rw [eA, eB, Finset.union_comm]
      have hcost : ∀ k, contractionCost ((Ts.map fun T => g.red T.top).getD i ∅) ((Ts.map fun T => g.red T.top).getD j ∅) k =
          contractionCost (g.red A.top) (g.red B.top) k := by
        intro k
        unfold contractionCost
        rw [hs]
      simp only [hs, e2, hcost, hm.1, hm.2]
      have e3 : (R.map fun T => g.red T.top) ++ [g.red t] = (R ++ [UT.node t A B]).map fun T => g.red T.top := by
        rw [List.map_append]; rfl
      rw [e3]
      have e4 : ((Ts.flatMap inner).map g.vcost).sum + g.vcost t = (((R ++ [UT.node t A B]).flatMap inner).map g.vcost).sum := by
        have := ((p1.symm.flatMap_right inner).map g.vcost).sum_eq
        rw [this]
        simp only [List.flatMap_cons, List.flatMap_append, List.flatMap_nil, List.append_nil, List.map_append, List.sum_append, inner,
          List.map_cons, List.sum_cons]
        omega
      have := w3 q
      omega

/-- The last contraction. -/
theorem Inv.last {g : Uct} (h : g.Inv) (hop : g.opn ⊆ (Finset.range g.n).biUnion g.sub) {i j : Nat} (hi : i < 2) (hj : j < 2) (hij : i ≠ j) :
    pathCost g.opn [g.red g.root.1, g.red g.root.2] [(i, j)] = g.rcost := by
  obtain ⟨Tu, Tv, hc⟩ := h.tree
  have hadj := hc.adjacent
  have p1 : g.parent g.root.1 = g.root.2 := h.parents.root.1
  have p2 : g.parent g.root.2 = g.root.1 := h.parents.root.2
  have s1 := h.sd_sub hc.su hadj.2.2.2.1 (fun x hx => hc.mem.2 (Or.inl hx))
  have s2 := h.sd_sub hc.sv hadj.2.2.1 (fun x hx => hc.mem.2 (Or.inr hx))
  rw [hc.tu] at s1
  rw [hc.tv] at s2
  obtain ⟨q1, _, _⟩ := cut_leaves h.two hc
  have hcov : g.opn ⊆ g.red g.root.1 ∪ g.red g.root.2 := by
    intro e he
    have h1 := hop he
    rw [Finset.mem_biUnion] at h1
    obtain ⟨z, hz, hez⟩ := h1
    rw [Finset.mem_range] at hz
    rw [Finset.mem_union]
    rcases List.mem_append.1 (q1.symm.subset (List.mem_range.2 hz)) with h2 | h2
    · left
      refine mem_red ?_ (Finset.mem_union_right _ he)
      unfold sb
      rw [p1, s1, Finset.mem_biUnion]
      exact ⟨z, List.mem_toFinset.2 h2, hez⟩
    · right
      refine mem_red ?_ (Finset.mem_union_right _ he)
      unfold sb
      rw [p2, s2, Finset.mem_biUnion]
      exact ⟨z, List.mem_toFinset.2 h2, hez⟩
  have hr : g.rcost = contractionCost (g.red g.root.1) (g.red g.root.2) g.opn := by
    rw [← stepCost_eq hcov]
    unfold rcost red
    rw [p1, p2]
    unfold stepCost
    rw [Finset.union_comm (g.openAt g.root.2 g.root.1)]
  have hkeep : (g.red g.root.1 ∪ g.red g.root.2) ∩ g.opn = g.opn := Finset.inter_eq_right.2 hcov
  have hcase : (i = 0 ∧ j = 1) ∨ (i = 1 ∧ j = 0) := by omega
  rcases hcase with ⟨rfl, rfl⟩ | ⟨rfl, rfl⟩
  · simp [pathCost, indexUnion, hkeep, hr]
  · simp [pathCost, indexUnion, hr]
    rw [Finset.union_comm, hkeep, contractionCost_comm]

/-- The constructor: the invariant holds, the stem is a heaviest path, and the cost is the cost of the path. -/
theorem make_spec {lhs : List (Finset Nat)} {rhs : Finset Nat} {path : List (Nat × Nat)} (h2 : 2 ≤ lhs.length)
    (hv : ValidPath lhs.length (path.map fun e => [e.1, e.2])) :
    ∃ g, make lhs rhs path = some g ∧ g.Inv ∧ g.n = lhs.length ∧ g.opn = rhs ∧ (∀ i, g.sub i = lhs.getD i ∅) ∧ g.Heaviest g.stem ∧
      (rhs ⊆ indexUnion lhs → g.cost = pathCost rhs lhs path) := by
  have hne : path ≠ [] := by
    rintro rfl
    generalize lhs.length = m at hv h2
    cases hv
    omega
  let g0 : Uct := ⟨lhs.length, rhs, fun i => lhs.getD i ∅, fun _ => [], fun _ _ => none, fun _ => 0, fun _ => none, (0, 0), 0, 0, []⟩
  let Ts : List UT := (List.range lhs.length).map UT.leaf
  have hTs : Ts.map top = List.range lhs.length := by
    show ((List.range lhs.length).map UT.leaf).map top = _
    rw [List.map_map]
    exact List.map_id _
  have hF : UForest g0 lhs.length Ts := by
    refine ⟨?_, ?_, fun _ _ => rfl⟩
    · intro T hT
      obtain ⟨x, hx, rfl⟩ := List.mem_map.1 hT
      exact ⟨List.mem_range.1 hx, rfl⟩
    · have : Ts.flatMap labels = List.range lhs.length := by
        show ((List.range lhs.length).map UT.leaf).flatMap labels = _
        rw [List.flatMap_map]
        show (List.range lhs.length).flatMap (fun x => [x]) = _
        rw [List.flatMap_singleton']
      rw [this]
  obtain ⟨g1, Tu, Tv, a1, a2, a3, a4⟩ := initLoop_spec path (g := g0) (t := lhs.length) (m := lhs.length) (Ts := Ts) hF (Nat.le_refl _)
    (by simp [Ts]) hne hv
  rw [hTs] at a1
  have hn1 : g1.n = lhs.length := a2.1
  obtain ⟨g2, b1, b2, b3, b4, b5⟩ := forest_close a3 (by rw [hn1]; omega)
  have hbase := a2.trans b2
  have hn2 : g2.n = lhs.length := hbase.1
  obtain ⟨g3, c1, c2, c3⟩ := edgeList_spec (g := g2) ⟨Tu, Tv, b3⟩ (fun x y => by rw [hbase.2.2.2.1])
  have hpar2 := parents_of_par b3 b4 b5
  -- the costs
  have hT3 : g3.Total := by
    unfold Total
    rw [c3.eq]
    simp only
    rw [hbase.2.2.2.2.1, hbase.2.2.2.2.2.1, hbase.2.2.2.2.2.2]
    simp [g0]
  have e3 : g3.adj = g2.adj ∧ g3.n = g2.n ∧ g3.parent = g2.parent ∧ g3.root = g2.root ∧ g3.opn = g2.opn ∧ g3.sub = g2.sub := by
    rw [c3.eq]
    exact ⟨rfl, rfl, rfl, rfl, rfl, rfl⟩
  have hcut3 : Cut g3.n g3.adj g3.root.1 g3.root.2 Tu Tv := by
    rw [e3.1, e3.2.1, e3.2.2.2.1]
    exact b3
  have hpar3 : g3.Parents := by
    refine parents_of_par hcut3 ?_ ?_
    · rw [e3.2.2.1, e3.2.2.2.1]; exact b4
    · rw [e3.2.2.1, e3.2.2.2.1]; exact b5
  have hn3 : g3.n = lhs.length := e3.2.1.trans hn2
  obtain ⟨g4, d1, d2, d3, d4⟩ := nodes_spec (lhs.length - 2) lhs.length (g := g3.computeRootCost) (by
      intro y h3 h4
      have hy : y < 2 * g3.n - 2 := by rw [hn3]; omega
      have := hcut3.nbrs hy
      rw [if_neg (by rw [hn3]; omega)] at this
      exact ⟨this.1, this.2.1, hpar3.mem y hy⟩)
    (total_root hT3) (show g3.n ≤ lhs.length by omega) (show lhs.length + (lhs.length - 2) = 2 * g3.n - 2 by omega)
    (fun y h3 h4 => absurd h4 (by show ¬ y < lhs.length; have : g3.n ≤ y := h3; omega))
  have e4 : g4.adj = g3.adj ∧ g4.n = g3.n ∧ g4.parent = g3.parent ∧ g4.root = g3.root ∧ g4.opn = g3.opn ∧ g4.sub = g3.sub ∧ g4.side = g3.side ∧
      g4.rootCost = g3.rcost := by
    rw [d2]
    exact ⟨rfl, rfl, rfl, rfl, rfl, rfl, rfl, rfl⟩
  obtain ⟨f1, f2, f3, f4, f5, f6, f7, f8⟩ := e4
  have hinv : g4.Inv := by
    refine ⟨by rw [f2, hn3]; exact h2, ⟨Tu, Tv, by rw [f1, f2, f4]; exact hcut3⟩, ?_, ?_, ?_, ?_, d3⟩
    · rw [d2]
      exact ⟨c2.1, c2.2, c2.3⟩
    · rw [d2]
      exact ⟨hpar3.1, hpar3.2, hpar3.3⟩
    · intro y h3 h4
      refine d4 y (by show g3.n ≤ y; omega) ?_
      rw [f2, hn3] at h4
      omega
    · rw [f8, d2]
      rfl
  obtain ⟨s, k1, k2⟩ := detectStem_spec hinv.two hinv.tree hinv.parents (fun y h3 h4 => by rw [hinv.node y h3 h4]; rfl)
  have hopn : g4.opn = rhs := f5.trans (e3.2.2.2.2.1.trans hbase.2.1)
  have hsub : g4.sub = fun i => lhs.getD i ∅ := f6.trans (e3.2.2.2.2.2.trans hbase.2.2.1)
  have hn4 : g4.n = lhs.length := f2.trans hn3
  refine ⟨{ g4 with stem := s }, ?_, ⟨hinv.1, hinv.2, ⟨hinv.3.1, hinv.3.2, hinv.3.3⟩, ⟨hinv.4.1, hinv.4.2, hinv.4.3⟩, hinv.5, hinv.6, hinv.7⟩,
    hn4, hopn, fun i => by show g4.sub i = _; rw [hsub], ⟨k2.1, k2.2, k2.3, k2.4⟩, ?_⟩
  · unfold make
    simp only [if_neg (show ¬ lhs.length = 1 by omega)]
    have a1' : initLoop path.dropLast (List.range lhs.length) lhs.length ⟨lhs.length, rhs, fun i => lhs.getD i ∅, fun _ => [], fun _ _ => none,
        fun _ => 0, fun _ => none, (0, 0), 0, 0, []⟩ = some ([Tu.top, Tv.top], g1) := a1
    rw [a1']
    simp only
    rw [hn2] at c1
    rw [b1] at c1
    rw [c1]
    simp only
    rw [d1]
    exact k1
  · intro hop
    show g4.cost = _
    have hcut4 : Cut g4.n g4.adj g4.root.1 g4.root.2 Tu Tv := by
      rw [f1, f2, f4]
      exact hcut3
    have hW : ∀ T ∈ mergeLoop path.dropLast Ts lhs.length, g4.Within T := by
      rw [a4]
      intro T hT
      simp only [List.mem_cons, List.not_mem_nil, or_false] at hT
      have q1 : Par g4.parent g4.root.2 Tu := by rw [f3, f4, e3.2.2.1, e3.2.2.2.1]; exact b4
      have q2 : Par g4.parent g4.root.1 Tv := by rw [f3, f4, e3.2.2.1, e3.2.2.2.1]; exact b5
      rcases hT with rfl | rfl
      · exact ⟨_, Tv, by rw [hcut4.tu]; exact hcut4, q1⟩
      · exact ⟨_, Tu, by rw [hcut4.tv]; exact hcut4.symm, q2⟩
    obtain ⟨l1, l2, l3⟩ := cut_leaves hinv.two hcut4
    obtain ⟨ii, jj, hlast⟩ : ∃ i j, path = path.dropLast ++ [(i, j)] := ⟨_, _, (List.dropLast_append_getLast hne).symm⟩
    have hL : ((mergeLoop path.dropLast Ts lhs.length).flatMap leaves).Perm (List.range g4.n) := by
      rw [a4]
      simp only [List.flatMap_cons, List.flatMap_nil, List.append_nil]
      exact l1
    obtain ⟨_, _, w3⟩ := hinv.loop path.dropLast Ts lhs.length ⟨[(ii, jj)], by
      rw [← hlast]
      have : Ts.length = lhs.length := by simp [Ts]
      rw [this]
      exact hv⟩ hW hL
    have w := w3 [(ii, jj)]
    rw [← hlast, a4] at w
    have i0 : Ts.flatMap inner = [] := by
      show ((List.range lhs.length).map UT.leaf).flatMap inner = _
      rw [List.flatMap_map]
      exact List.flatMap_eq_nil_iff.2 fun x _ => rfl
    rw [i0] at w
    simp only [List.map_nil, List.sum_nil, Nat.add_zero, List.flatMap_cons, List.flatMap_nil, List.append_nil, List.map_cons] at w
    rw [hcut4.tu, hcut4.tv] at w
    -- the last pair
    have hij : ii < 2 ∧ jj < 2 ∧ ii ≠ jj := by
      have key : ∀ (p : List (Nat × Nat)) (m : Nat), ValidPath m ((p ++ [(ii, jj)]).map fun e => [e.1, e.2]) → ii < 2 ∧ jj < 2 ∧ ii ≠ jj := by
        intro p
        induction p with
        | nil =>
          intro m h
          obtain ⟨k, _, h1, h3, h4, h5⟩ := validPath_pair h
          cases h5
          exact ⟨h1, h3, h4⟩
        | cons e p ih =>
          intro m h
          obtain ⟨k, _, _, _, _, h5⟩ := validPath_pair h
          exact ih k h5
      exact key path.dropLast lhs.length (by rw [← hlast]; exact hv)
    have hopsub : g4.opn ⊆ (Finset.range g4.n).biUnion g4.sub := by
      rw [hopn, hn4, hsub]
      intro e he
      obtain ⟨s, hs1, hs2⟩ := mem_indexUnion.1 (hop he)
      obtain ⟨i, hi, rfl⟩ := List.mem_iff_getElem.1 hs1
      rw [Finset.mem_biUnion]
      exact ⟨i, Finset.mem_range.2 hi, by rw [getD_lt hi]; exact hs2⟩
    rw [hinv.last hopsub hij.1 hij.2.1 hij.2.2] at w
    have hTsred : (Ts.map fun T => g4.red T.top) = lhs := by
      show ((List.range lhs.length).map UT.leaf).map (fun T => g4.red T.top) = lhs
      rw [List.map_map]
      apply List.ext_getElem
      · simp
      · intro i h3 h4
        rw [List.getElem_map, List.getElem_range]
        show g4.red i = _
        rw [red_eq, if_pos (by rw [hn4]; exact h4), hinv.sb_leaf (by rw [hn4]; exact h4), hsub]
        exact getD_lt h4
    rw [hTsred, hopn] at w
    rw [w, hinv.total, hinv.root]
    have hsum : (∑ v ∈ Finset.Ico g4.n (2 * g4.n - 2), (((g4.ncost v).getD 0 : Nat) : Int)) = (((Tu.inner ++ Tv.inner).map g4.vcost).sum : Nat) := by
      rw [← l3, List.sum_toFinset _ l2, Nat.cast_list_sum, List.map_map]
      congr 1
      apply List.map_congr_left
      intro x hx
      have := l3 ▸ List.mem_toFinset.2 hx
      rw [Finset.mem_Ico] at this
      rw [hinv.node x this.1 this.2]
      rfl
    rw [hsum]
    push_cast
    ring

end Uct

end Verif
