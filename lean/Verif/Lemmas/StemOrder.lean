import Verif.Lemmas.StemMerge
import Verif.Lemmas.PatchOrder
/-!
# Reading a tree off an order, and compiling with a search that may fail

Used for C60.
-/

set_option linter.unusedSectionVars false

namespace Verif
open PTree

/-- The tree of a tensor. -/
def ptreeOf (d : Dict Nm PTree) (x : Nm) : PTree := (d.get? x).getD (.leaf x [])

/-- contraction_tree.py:23-34: the trees while reading an order. -/
structure PForest (ns live : List Nm) (done : List Nm) (d : Dict Nm PTree) : Prop where
  tree : ∀ x ∈ live, ∃ t, d.get? x = some t ∧ t.name = x ∧ t.Old
  lv : (live.map fun x => (ptreeOf d x).lv).sum = (ns : Multiset Nm)
  inn : (live.map fun x => (ptreeOf d x).inn).sum = (done : Multiset Nm)

theorem mk_old {n : Nm} {s : List Nm} {x y : PTree} (hx : x.Old) (hy : y.Old) : (PTree.mk false n s x y).Old := by
  unfold PTree.mk
  split
  · exact ⟨rfl, hx, hy⟩
  · exact ⟨rfl, hy, hx⟩

theorem PForest.step {subs : Nm → List Nm} {ns live rest : List Nm} {x y z : Nm} {done : List Nm} {d : Dict Nm PTree}
    (h : PForest ns live done d) (h1 : live.Perm ([x, y] ++ rest)) (h3 : z ∉ rest) :
    ∃ d', ptreeStep subs d ([x, y], z) = some d' ∧ PForest ns (z :: rest) (done ++ [z]) d' := by
  obtain ⟨t, ht, hn, ho⟩ := h.tree x (h1.mem_iff.2 (by simp))
  obtain ⟨u, hu, hm, ho'⟩ := h.tree y (h1.mem_iff.2 (by simp))
  refine ⟨d.set z (PTree.mk false z (subs z) t u), by simp [ptreeStep, ht, hu], ?_, ?_, ?_⟩
  · intro w hw
    rcases List.mem_cons.1 hw with rfl | hw
    · exact ⟨_, by rw [Dict.get?_set, if_pos rfl], PTree.mk_name .., mk_old ho ho'⟩
    · obtain ⟨v, hv, k⟩ := h.tree w (h1.mem_iff.2 (by simp [hw]))
      exact ⟨v, by rw [Dict.get?_set, if_neg (by rintro rfl; exact h3 hw)]; exact hv, k⟩
  all_goals
    have hx : ptreeOf d x = t := by unfold ptreeOf; rw [ht]; rfl
    have hy : ptreeOf d y = u := by unfold ptreeOf; rw [hu]; rfl
    have hz : ptreeOf (d.set z (PTree.mk false z (subs z) t u)) z = PTree.mk false z (subs z) t u := by
      unfold ptreeOf
      rw [Dict.get?_set, if_pos rfl]
      rfl
    have hr : ∀ f : PTree → Multiset Nm, (rest.map fun w => f (ptreeOf (d.set z (PTree.mk false z (subs z) t u)) w)) = rest.map fun w => f (ptreeOf d w) := by
      intro f
      refine List.map_congr_left fun w hw => ?_
      unfold ptreeOf
      rw [Dict.get?_set, if_neg (by rintro rfl; exact h3 hw)]
  · have := (h1.map fun w => (ptreeOf d w).lv).sum_eq
    rw [h.lv, List.map_append, List.sum_append] at this
    rw [List.map_cons, List.sum_cons, hz, hr, PTree.mk_lv, this]
    simp [hx, hy]
  · have := (h1.map fun w => (ptreeOf d w).inn).sum_eq
    rw [h.inn, List.map_append, List.sum_append] at this
    rw [List.map_cons, List.sum_cons, hz, hr, PTree.mk_inn, ← Multiset.coe_add, this]
    simp only [List.map_cons, List.map_nil, List.sum_cons, List.sum_nil, add_zero, hx, hy, Multiset.coe_singleton]
    abel

theorem PForest.steps_all {subs : Nm → List Nm} {ns : List Nm} {last : Nm} {order : List OrderStep} :
    ∀ {live : List Nm} {done : List Nm} {d : Dict Nm PTree}, PForest ns live done d → ValidOrder live order last → Pairwise2 order →
      ∃ d', order.foldlM (ptreeStep subs) d = some d' ∧ PForest ns [last] (done ++ order.map (·.2)) d' := by
  induction order with
  | nil =>
    intro live done d h hv _
    cases hv
    exact ⟨d, rfl, by simpa using h⟩
  | cons s order ih =>
    intro live done d h hv hb
    cases hv with
    | @step _ xs rest z _ _ h1 h2 h3 h4 =>
      have hl : xs.length = 2 := hb (xs, z) List.mem_cons_self
      obtain ⟨x, y, rfl⟩ := List.length_eq_two.1 hl
      obtain ⟨d1, e1, k1⟩ := h.step (subs := subs) h1 h3
      obtain ⟨d2, e2, k2⟩ := ih k1 h4 (fun s hs => hb s (List.mem_cons_of_mem _ hs))
      refine ⟨d2, by rw [List.foldlM_cons, e1]; exact e2, ?_⟩
      simpa using k2

theorem pforest_init {τ : Type} (nodes : Dict Nm (NodeRec τ)) :
    PForest nodes.keys nodes.keys [] (nodes.map fun p => (p.1, PTree.leaf p.1 p.2.legs)) := by
  have hg : ∀ x ∈ nodes.keys, ∃ s, Dict.get? (nodes.map fun p => (p.1, PTree.leaf p.1 p.2.legs)) x = some (.leaf x s) := by
    intro x hx
    obtain ⟨r, hr⟩ := Dict.exists_get? hx
    refine ⟨r.legs, ?_⟩
    clear hx
    induction nodes with
    | nil => simp [Dict.get?] at hr
    | cons p d ih =>
      rw [List.map_cons, Dict.get?_cons]
      rw [Dict.get?_cons] at hr
      split at hr
      · rename_i e
        rw [if_pos e]
        rw [Option.some.injEq] at hr
        rw [hr, e]
      · rename_i e
        rw [if_neg e, ih hr]
  have ht : ∀ x ∈ nodes.keys, ∃ s, ptreeOf (nodes.map fun p => (p.1, PTree.leaf p.1 p.2.legs)) x = .leaf x s := by
    intro x hx
    obtain ⟨s, hs⟩ := hg x hx
    exact ⟨s, by unfold ptreeOf; rw [hs]; rfl⟩
  refine ⟨fun x hx => ?_, ?_, ?_⟩
  · obtain ⟨s, hs⟩ := hg x hx
    exact ⟨_, hs, rfl, trivial⟩
  · have : (nodes.keys.map fun x => (ptreeOf (nodes.map fun p => (p.1, PTree.leaf p.1 p.2.legs)) x).lv) = nodes.keys.map fun x => ({x} : Multiset Nm) := by
      refine List.map_congr_left fun x hx => ?_
      obtain ⟨s, hs⟩ := ht x hx
      rw [hs]
      rfl
    rw [this]
    generalize nodes.keys = l
    induction l with
    | nil => rfl
    | cons a l ih => rw [List.map_cons, List.sum_cons, ih, ← Multiset.cons_coe, Multiset.singleton_add]
  · have : (nodes.keys.map fun x => (ptreeOf (nodes.map fun p => (p.1, PTree.leaf p.1 p.2.legs)) x).inn) = nodes.keys.map fun _ => (0 : Multiset Nm) := by
      refine List.map_congr_left fun x hx => ?_
      obtain ⟨s, hs⟩ := ht x hx
      rw [hs]
      rfl
    rw [this]
    generalize nodes.keys = l
    induction l with
    | nil => rfl
    | cons a l ih => rw [List.map_cons, List.sum_cons, ih]; rfl

/-- What the tree of an order is like. -/
structure TreeOf (ns : List Nm) (order : List OrderStep) (t : PTree) : Prop where
  lv : t.lv = (ns : Multiset Nm)
  inn : t.inn = (order.map (·.2) : Multiset Nm)
  name : t.name = .str "#"
  old : t.Old
  nodup : t.nms.Nodup

theorem foldTree_spec {τ : Type} {nodes : Dict Nm (NodeRec τ)} {order : List OrderStep} (subs : Nm → List Nm) (hv : ValidOrder nodes.keys order (.str "#"))
    (h2 : Pairwise2 order) (hs : SingleAssignment nodes.keys order) :
    ∃ d t, order.foldlM (ptreeStep subs) (nodes.map fun p => (p.1, PTree.leaf p.1 p.2.legs)) = some d ∧ d.get? (.str "#") = some t ∧
      TreeOf nodes.keys order t := by
  obtain ⟨d, e, k⟩ := (pforest_init nodes).steps_all (subs := subs) hv h2
  obtain ⟨t, ht, hn, ho⟩ := k.tree (.str "#") (by simp)
  have hx : ptreeOf d (.str "#") = t := by unfold ptreeOf; rw [ht]; rfl
  have k1 := k.lv
  have k2 := k.inn
  simp only [List.map_cons, List.map_nil, List.sum_cons, List.sum_nil, add_zero, hx, List.nil_append] at k1 k2
  refine ⟨d, t, e, ht, k1, k2, hn, ho, ?_⟩
  rw [PTree.nms, k1, k2, Multiset.coe_add, Multiset.coe_nodup]
  exact hs

theorem fromOrder_spec {τ : Type} [NetTensor τ] {perm : List Nm → List Nm} {tn : TN τ} {order : List OrderStep} (hv : ValidOrder tn.nodes.keys order (.str "#"))
    (h2 : Pairwise2 order) (hs : SingleAssignment tn.nodes.keys order) {t : PTree} (h : fromOrder perm tn order = some t) : TreeOf tn.nodes.keys order t := by
  unfold fromOrder at h
  split at h
  · simp at h
  rename_i d hd
  obtain ⟨d', t', e1, e2, e3⟩ := foldTree_spec (legsOf d) hv h2 hs
  rw [e1] at h
  dsimp only at h
  rw [e2, Option.some.injEq] at h
  exact h ▸ e3

/-- Reading the tree works. -/
theorem legsAlong_ok {τ : Type} [NetTensor τ] {D : Nm → Nat} {perm : List Nm → List Nm} (hperm : ∀ l, (perm l).Perm l) {ns live : List Nm} {o : List OrderStep}
    (hr : Runs ns o live) {tn : TN τ} (hk : tn.nodes.keys.Perm ns) (hc : tn.Consistent) (hl : tn.Loose D) (hx : NoFix tn) (d : Dict Nm (List Nm)) :
    ∃ d', legsAlong perm o tn d = .ok d' := by
  induction hr generalizing tn d with
  | nil h => exact ⟨d, rfl⟩
  | cons h1 h2 h3 _ ih =>
    obtain ⟨tn1, stn, _, e2, e3, e4, _⟩ := encStep_ok hperm hc hl hx (hk.trans h1) h3
    obtain ⟨d2, k1⟩ := ih e4 e3.cons e3.loose e3.nofix (d.set _ _)
    exact ⟨d2, by rw [legsAlong, e2]; exact k1⟩

theorem fromOrder_some {τ : Type} [NetTensor τ] {D : Nm → Nat} {perm : List Nm → List Nm} (hperm : ∀ l, (perm l).Perm l) {tn : TN τ} {order : List OrderStep}
    (hc : tn.Consistent) (hl : tn.Loose D) (hx : NoFix tn) (hv : ValidOrder tn.nodes.keys order (.str "#")) (h2 : Pairwise2 order)
    (hs : SingleAssignment tn.nodes.keys order) : ∃ t, fromOrder perm tn order = some t := by
  obtain ⟨d, hd⟩ := legsAlong_ok hperm (validOrder_iff.1 hv) (List.Perm.refl _) hc hl hx (tn.nodes.map fun p => (p.1, p.2.legs))
  obtain ⟨d', t', e1, e2, e3⟩ := foldTree_spec (legsOf d) hv h2 hs
  exact ⟨t', by unfold fromOrder; rw [hd]; dsimp only; rw [e1]; exact e2⟩

/-! ## A search that may fail -/

/-- compiler.py:200-221: the network and the order given to the search for better orders of the large steps, if it is called. -/
def largeSteps {τ : Type} [NetTensor τ] (perm : List Nm → List Nm) (thres : Nat) (tn : TN τ) (order : List OrderStep) (split : List Nm) :
    Option (TN τ × List OrderStep) :=
  let g := (TN.fixAll { tn with openE := tn.openE ++ split }).dropDangling
  match encAlong perm order g g.legLens with
  | .error _ => none
  | .ok (_, d) =>
    match treeOrder (lenOf d) g.nodes.keys order with
    | none => none
    | some order' =>
      match reorgPatch perm thres g order' with
      | .error _ => none
      | .ok (g', _, final) =>
        match closeSlices g' split with
        | (_, .error _) => none
        | (g2, .ok ()) => if final.isEmpty then none else some (g2.fixAll, final)

/-- Two searches that agree on the one call. -/
theorem orderPatch_agree {τ : Type} [NetTensor τ] {perm : List Nm → List Nm} {thres : Nat} {patch patch' : TN τ → List OrderStep → Option (List OrderStep)}
    {tn : TN τ} {order : List OrderStep} {split : List Nm} {x : List OrderStep × List OrderStep}
    (ha : ∀ g o o', largeSteps perm thres tn order split = some (g, o) → patch g o = some o' → patch' g o = some o')
    (h : orderPatch perm thres patch tn order split = .ok x) : orderPatch perm thres patch' tn order split = .ok x := by
  unfold orderPatch largeSteps at *
  dsimp only at *
  generalize (TN.fixAll { tn with openE := tn.openE ++ split }).dropDangling = g at *
  cases hd : encAlong perm order g g.legLens with
  | error e => simp [hd] at h
  | ok p =>
    simp only [hd] at h ha ⊢
    cases ho : treeOrder (lenOf p.2) g.nodes.keys order with
    | none => simp [ho] at h
    | some order' =>
      simp only [ho] at h ha ⊢
      cases hr : reorgPatch perm thres g order' with
      | error e => simp [hr] at h
      | ok q =>
        simp only [hr] at h ha ⊢
        rcases hc : closeSlices q.1 split with ⟨g2, e | u⟩
        · simp [hc] at h
        · simp only [hc] at h ha ⊢
          by_cases hf : q.2.2.isEmpty = true
          · simp only [hf, if_true] at h ⊢
            exact h
          · simp only [hf, Bool.false_eq_true, if_false] at h ha ⊢
            unfold patchFinal at h ⊢
            cases hz : encAlong perm q.2.2 g2.fixAll g2.fixAll.legLens with
            | error e => simp [hz] at h
            | ok z =>
              simp only [hz] at h ⊢
              cases hp : patch g2.fixAll q.2.2 with
              | none => simp [hp] at h
              | some o' =>
                rw [ha _ _ _ rfl hp]
                simpa [hp] using h

end Verif
