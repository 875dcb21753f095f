import Verif.Lemmas.SlicerLoop
import Verif.Props.Khp
/-!
# C58: the slicer

The ranges of subscripts on the stem, the choice of the edges to slice, and the schemes the slicer gives
(acqdp/tensor_network/slicer.py).
-/

namespace Verif
open Uct

variable {τ : Type}

/-- Operand `z` is reached from `u` through the neighbour `v`. -/
def Beyond (adj : Nat → List Nat) (u v z : Nat) : Prop := ∃ P, IsGraphPath adj (u :: v :: P) ∧ (v :: P).getLast? = some z

/-- The subscripts of the tensor at a vertex `x` with parent `p` of a tree: all those of an operand; for a contraction those of
an operand below that the result or an operand elsewhere has, too. -/
def HasSub (lhs : List (Finset Nat)) (rhs : Finset Nat) (adj : Nat → List Nat) (p x a : Nat) : Prop :=
  (∃ z < lhs.length, a ∈ lhs.getD z ∅ ∧ Beyond adj p x z) ∧
  (x < lhs.length ∨ a ∈ rhs ∨ ∃ z < lhs.length, a ∈ lhs.getD z ∅ ∧ Beyond adj x p z)

/-- **C58**: the ranges of `_biggest_weight_edge`: `(a, d, i)` is one of them exactly if the tensors at the vertices
`d, ..., i - 1` of the stem have the subscript `a`, and those at `i` and at `d - 1` do not. -/
theorem c58_ranges {enum : Finset Nat → List Nat} (he : ∀ S a, a ∈ enum S ↔ a ∈ S) {lhs : List (Finset Nat)} {rhs : Finset Nat} {g : Uct}
    (h : Uct.Reach lhs rhs g) {a d i : Nat} :
    (a, d, i) ∈ g.spans enum ↔ i + 1 < g.stem.length ∧ d < i ∧
      (∀ k, d ≤ k → k < i → HasSub lhs rhs g.adj (g.parent (g.stem.getD k 0)) (g.stem.getD k 0) a) ∧
      ¬ HasSub lhs rhs g.adj (g.parent (g.stem.getD i 0)) (g.stem.getD i 0) a ∧
      (d = 0 ∨ ¬ HasSub lhs rhs g.adj (g.parent (g.stem.getD (d - 1) 0)) (g.stem.getD (d - 1) 0) a) := by
  have key : ∀ k, k < g.stem.length → (a ∈ g.openAt (g.parent (g.stem.getD k 0)) (g.stem.getD k 0) ↔
      HasSub lhs rhs g.adj (g.parent (g.stem.getD k 0)) (g.stem.getD k 0) a) := by
    intro k hk
    obtain ⟨hI, hS, hn, hr, hs⟩ := h.inv
    have hx : g.stem.getD k 0 < 2 * g.n - 2 := hS.2 _ (by rw [getD_lt hk]; exact List.getElem_mem hk)
    generalize g.stem.getD k 0 = x at hx
    have hpar := hI.parents.mem x hx
    obtain ⟨_, _, hnb⟩ := hI.nbrs hx
    obtain ⟨q1, q2, _⟩ := hnb _ hpar
    obtain ⟨s1, a1, a2⟩ := c57_edges h q2 q1
    obtain ⟨s2, b1, b2⟩ := c57_edges h hx hpar
    have e1 : g.sd (g.parent x) x = s1 := by unfold Uct.sd; rw [a1]; rfl
    have e2 : g.sd x (g.parent x) = s2 := by unfold Uct.sd; rw [b1]; rfl
    have m1 : a ∈ s1 ↔ ∃ z < lhs.length, a ∈ lhs.getD z ∅ ∧ Beyond g.adj (g.parent x) x z := by
      rw [a2]
      exact ⟨fun ⟨z, P, k1, k2, k3⟩ => ⟨z, k1, k2, P, k3⟩, fun ⟨z, k1, k2, P, k3⟩ => ⟨z, P, k1, k2, k3⟩⟩
    have m2 : a ∈ s2 ↔ ∃ z < lhs.length, a ∈ lhs.getD z ∅ ∧ Beyond g.adj x (g.parent x) z := by
      rw [b2]
      exact ⟨fun ⟨z, P, k1, k2, k3⟩ => ⟨z, k1, k2, P, k3⟩, fun ⟨z, k1, k2, P, k3⟩ => ⟨z, P, k1, k2, k3⟩⟩
    rw [Uct.openAt_eq, e1, e2]
    unfold HasSub
    rw [← m1, ← m2, ← hn]
    split
    · rename_i hlt
      simp [hlt]
    · rename_i hlt
      rw [Finset.mem_inter, Finset.mem_union, hr]
      simp only [hlt, false_or, or_comm]
  rw [mem_spans he]
  unfold Range
  refine and_congr_right fun h1 => and_congr_right fun h2 => ?_
  dsimp only
  rw [key i (by omega), key (d - 1) (by omega)]
  refine and_congr_left fun _ => forall_congr' fun k => forall_congr' fun _ => forall_congr' fun hk => ?_
  rw [key k (by omega)]

/-- More steps allowed, same result: a round adds at least one sliced edge. -/
theorem biggestEdge_ne {enum : Finset Nat → List Nat} {accept : Int → Int → Bool} {tn : TN τ} {order o : List OrderStep} {es : List Nm}
    (h : biggestEdge enum accept tn order = some (es, o)) : es ≠ [] := by
  unfold biggestEdge at h
  dsimp only at h
  split at h
  · simp at h
  split at h
  · simp at h
  split at h
  · simp at h
  rename_i p _
  split at h
  · simp at h
  rename_i subs pp hr
  split at h
  · rename_i es' o' h1 h2
    simp only [Option.some.injEq, Prod.mk.injEq] at h
    obtain ⟨rfl, rfl⟩ := h
    have hs : subs ≠ [] := by
      unfold Pick.result at hr
      split at hr
      · rename_i hl
        rw [Option.map_eq_some_iff] at hr
        obtain ⟨_, _, hr⟩ := hr
        simp only [Prod.mk.injEq] at hr
        rw [← hr.1]
        exact List.length_pos_iff.1 hl
      · rw [Option.map_eq_some_iff] at hr
        obtain ⟨_, _, hr⟩ := hr
        simp only [Prod.mk.injEq] at hr
        rw [← hr.1]
        simp
    intro he
    subst he
    cases subs with
    | nil => exact hs rfl
    | cons a l =>
      rw [List.mapM_cons] at h1
      simp only [Option.pure_def, Option.bind_eq_bind, Option.bind_eq_some_iff] at h1
      obtain ⟨_, _, _, _, h1⟩ := h1
      simp at h1
  · simp at h

theorem Pick.round_taken {accept : Int → Int → Bool} {p p' : Pick} {s : Nat × Nat × Nat} (h : p.round accept s = some p') :
    ∃ l, l.Sublist [s.1] ∧ p'.taken = p.taken ++ l := by
  unfold Pick.round at h
  split at h
  · simp at h
  · split at h
    · simp only [Option.some.injEq] at h
      exact ⟨[s.1], List.Sublist.refl _, by rw [← h]⟩
    · rw [Option.map_eq_some_iff] at h
      obtain ⟨_, _, h⟩ := h
      exact ⟨[], List.nil_sublist _, by rw [← h]; simp⟩

theorem Pick.rounds_taken {accept : Int → Int → Bool} {ss : List (Nat × Nat × Nat)} : ∀ {p p' : Pick}, ss.foldlM (Pick.round accept) p = some p' →
    ∃ l, l.Sublist (ss.map (·.1)) ∧ p'.taken = p.taken ++ l := by
  induction ss with
  | nil => intro p p' h; simp only [List.foldlM_nil, Option.pure_def, Option.some.injEq] at h; exact ⟨[], by simp, by rw [h]; simp⟩
  | cons s ss ih =>
    intro p p' h
    rw [List.foldlM_cons, Option.bind_eq_bind, Option.bind_eq_some_iff] at h
    obtain ⟨p1, h1, h2⟩ := h
    obtain ⟨l1, a1, a2⟩ := Pick.round_taken h1
    obtain ⟨l2, b1, b2⟩ := ih h2
    exact ⟨l1 ++ l2, a1.append b1, by rw [b2, a2, List.append_assoc]⟩

theorem mapM_keys_nodup {K : Type} {ks : List K} (hk : ks.Nodup) : ∀ {l : List Nat} {r : List K}, l.mapM (fun s => ks[s]?) = some r → l.Nodup → r.Nodup
  | [], r, h, _ => by
    simp only [List.mapM_nil, Option.pure_def, Option.some.injEq] at h
    rw [← h]
    exact List.nodup_nil
  | s :: l, r, h, hl => by
    rw [List.mapM_cons] at h
    simp only [Option.pure_def, Option.bind_eq_bind, Option.bind_eq_some_iff, Option.some.injEq] at h
    obtain ⟨k, h1, r', h2, rfl⟩ := h
    rw [List.nodup_cons] at hl ⊢
    refine ⟨fun hm => hl.1 ?_, mapM_keys_nodup hk h2 hl.2⟩
    have : ∀ {l : List Nat} {r : List K}, l.mapM (fun s => ks[s]?) = some r → ∀ k ∈ r, ∃ s ∈ l, ks[s]? = some k := by
      intro l
      induction l with
      | nil => intro r h k hk; simp only [List.mapM_nil, Option.pure_def, Option.some.injEq] at h; subst h; simp at hk
      | cons a l ih =>
        intro r h k hk
        rw [List.mapM_cons] at h
        simp only [Option.pure_def, Option.bind_eq_bind, Option.bind_eq_some_iff, Option.some.injEq] at h
        obtain ⟨k', g1, r'', g2, rfl⟩ := h
        rcases List.mem_cons.1 hk with rfl | hk
        · exact ⟨a, List.mem_cons_self, g1⟩
        · obtain ⟨s', m1, m2⟩ := ih g2 k hk
          exact ⟨s', List.mem_cons_of_mem _ m1, m2⟩
    obtain ⟨s', m1, m2⟩ := this h2 k hm
    obtain ⟨q, hq⟩ := List.getElem?_eq_some_iff.1 h1
    obtain ⟨q', hq'⟩ := List.getElem?_eq_some_iff.1 m2
    have : s = s' := (List.Nodup.getElem_inj_iff hk).1 (hq.trans hq'.symm)
    exact this ▸ m1

/-- **C58**: `_biggest_weight_edge` for a pairwise order of at least two nodes: it raises exactly if no range ends on the stem.
If not it gives edges that are legs of the network without its fixed edges, at least one and at most ten, and another pairwise
order of the same nodes with the same names for the steps.  The edges are distinct if each subscript has one range only. -/
theorem c58_edge_partial {enum : Finset Nat → List Nat} (he : ∀ S a, a ∈ enum S ↔ a ∈ S) (accept : Int → Int → Bool) {tn : TN τ}
    (hc : tn.Consistent) {order : List OrderStep} {last : Nm} (hv : ValidOrder tn.nodes.keys order last)
    (hs : SingleAssignment tn.nodes.keys order) (hp : Pairwise2 order) (h2 : 2 ≤ tn.nodes.keys.length) :
    ∃ path g, (orderToPath tn.nodes.keys order).bind pairsOfPath = some path ∧
      Uct.make tn.fixAll.subSets.1 tn.fixAll.subSets.2 path = some g ∧ Uct.Reach tn.fixAll.subSets.1 tn.fixAll.subSets.2 g ∧
      (biggestEdge enum accept tn order = none ↔ g.spans enum = []) ∧
      ∀ es o, biggestEdge enum accept tn order = some (es, o) → es ≠ [] ∧ es.length ≤ 10 ∧
        (∀ e ∈ es, ∃ n r, tn.fixAll.nodes.get? n = some r ∧ e ∈ r.legs) ∧
        ValidOrder tn.nodes.keys o last ∧ SingleAssignment tn.nodes.keys o ∧ Pairwise2 o ∧
        (((g.spans enum).map (·.1)).Nodup → es.Nodup) := by
  obtain ⟨path, g, a1, a2, a3, a4, a5⟩ := biggestEdge_spec he accept hc hv hs hp h2
  refine ⟨path, g, a1, a2, a3, ⟨fun hn => ?_, a4⟩, fun es o h => ?_⟩
  · by_contra hne
    obtain ⟨es, o, b1, _⟩ := a5 hne
    rw [hn] at b1
    simp at b1
  · by_cases hne : g.spans enum = []
    · rw [a4 hne] at h
      simp at h
    obtain ⟨es', o', b1, b2, b3, b4, b5, b6, b7⟩ := a5 hne
    rw [h, Option.some.injEq, Prod.mk.injEq] at b1
    obtain ⟨rfl, rfl⟩ := b1
    refine ⟨b2, b3, b4, b5, b6, b7, fun hnd => ?_⟩
    have hk : tn.fixAll.nodes.keys = tn.nodes.keys := (c22_structure_partial hc).2.1
    unfold biggestEdge at h
    dsimp only at h
    rw [hk, a1] at h
    dsimp only at h
    rw [a2] at h
    dsimp only at h
    split at h
    · simp at h
    rename_i p hpk
    split at h
    · simp at h
    rename_i subs pp hr
    split at h
    · rename_i es' o' h1 _
      simp only [Option.some.injEq, Prod.mk.injEq] at h
      obtain ⟨rfl, rfl⟩ := h
      refine mapM_keys_nodup (c22_structure_partial hc).2.2.2.2.2.edges_nodup h1 ?_
      unfold Pick.result at hr
      split at hr
      · rw [Option.map_eq_some_iff] at hr
        obtain ⟨_, _, hr⟩ := hr
        simp only [Prod.mk.injEq] at hr
        obtain ⟨l, k1, k2⟩ := Pick.rounds_taken hpk
        rw [← hr.1, k2, List.nil_append]
        refine k1.nodup ?_
        refine List.Nodup.sublist ((List.take_sublist _ _).map _) ?_
        exact ((List.perm_insertionSort _ _).map _).nodup_iff.2 hnd
      · rw [Option.map_eq_some_iff] at hr
        obtain ⟨_, _, hr⟩ := hr
        simp only [Prod.mk.injEq] at hr
        rw [← hr.1]
        simp
    · simp at h

/-- **C58**, against the intention: on a network with two nodes `_biggest_weight_edge` always raises (`IndexError` at
slicer.py:200): the stem are the two operands, so that no range ends on it. -/
theorem c58_two_nodes_violated {enum : Finset Nat → List Nat} (he : ∀ S a, a ∈ enum S ↔ a ∈ S) (accept : Int → Int → Bool) {tn : TN τ}
    (hc : tn.Consistent) {order : List OrderStep} {last : Nm} (hv : ValidOrder tn.nodes.keys order last)
    (hs : SingleAssignment tn.nodes.keys order) (hp : Pairwise2 order) (h2 : tn.nodes.keys.length = 2) :
    biggestEdge enum accept tn order = none := by
  obtain ⟨path, g, a1, a2, a3, a4, _⟩ := c58_edge_partial he accept hc hv hs hp h2.ge
  rw [a4]
  obtain ⟨_, hS, hn, _, _⟩ := a3.inv
  have hl : tn.fixAll.subSets.1.length = 2 := by
    rw [← h2, ← (c22_structure_partial hc).2.1]
    simp [TN.subSets, Dict.keys]
  by_contra hne
  obtain ⟨⟨a, d, i⟩, hm⟩ := List.exists_mem_of_ne_nil _ hne
  obtain ⟨k1, k2, _⟩ := (mem_spans he).1 hm
  have : g.stem.length ≤ 2 := by
    have h1 : g.stem ⊆ List.range 2 := fun x hx => by
      have := hS.2 x hx
      rw [List.mem_range]
      omega
    have := List.subperm_of_subset hS.1.2 h1 |>.length_le
    simpa using this
  omega

/-- **C58**: the bound on the number of rounds is none: `max_num_slice + 1` rounds are always enough, more rounds allowed give
the same result. -/
theorem c58_rounds (P : SliceParams) (V : SliceEnv τ) {f1 : Nat} : ∀ {f2 i : Nat} {tn : TN τ} {sl : List Nm} {y : Sch},
    P.maxNumSlice.toNat < f1 + sl.length → P.maxNumSlice.toNat < f2 + sl.length → 0 < f1 → 0 < f2 →
    sliceLoop P V f1 i tn sl y = sliceLoop P V f2 i tn sl y := by
  induction f1 with
  | zero => intro f2 i tn sl y _ _ h; omega
  | succ f1 ih =>
    intro f2 i tn sl y h1 h2 _ h3
    obtain ⟨f2, rfl⟩ : ∃ k, f2 = k + 1 := ⟨f2 - 1, by omega⟩
    unfold sliceLoop
    split
    · split
      · rfl
      · rename_i hlt
        split
        · rfl
        · split
          · rfl
          · split
            · rfl
            · rename_i k order hk
              have hne := List.length_pos_iff.2 (biggestEdge_ne hk)
              split
              · rfl
              · split
                · rfl
                · have hl : (sl ++ k).length = sl.length + k.length := List.length_append
                  exact ih (by omega) (by omega) (by omega) (by omega)
    · rfl

/-- **C58**: the scheme the slicer gives, for all oracles: its order contracts the network, it is within the limit on the
width, and the sliced edges are unfixed edges of tensors of the network; there are at most nine more of them than
`max_num_slice` allows.  Partial: the order is pairwise unless the last optimisation made the scheme too wide
(`c58_mutated_violated`), and an edge may be sliced twice (`c58_twice_violated`). -/
theorem c58_slice_partial {P : SliceParams} {V : SliceEnv τ} (hV : V.Good) {tn : TN τ} (hc : tn.Consistent) (hp : LegsPos tn)
    (h2 : 2 ≤ tn.nodes.keys.length) {orders : List Sch} (ho : ∀ y ∈ orders, GoodOrder tn.nodes.keys y.order) {res : Sch} {sl : List Nm}
    (h : sliceScheme P V tn orders = some (some (res, sl))) :
    ValidOrder tn.nodes.keys res.order (.str "#") ∧ SingleAssignment tn.nodes.keys res.order ∧ res.cost.t ≤ 2 ^ P.maxTw ∧
    (∀ e ∈ sl, ∃ d, tn.edges.get? e = some ⟨some d, none⟩ ∧ 0 < d) ∧
    (∀ e ∈ sl, ∃ n r, tn.nodes.get? n = some r ∧ e ∈ r.legs) ∧
    (sl = [] ∨ (sl.length : Int) ≤ P.maxNumSlice + 9) ∧
    (Pairwise2 res.order ∨ V.after ≠ [] ∧ ∃ tn1 o, GoodOrder tn.nodes.keys o ∧ 2 ^ P.maxTw < (V.cost tn1 o).t) := by
  unfold sliceScheme at h
  split at h
  · simp at h
  rename_i y0 hy0
  obtain ⟨y1, a1, a2, _⟩ := y0.optimize_good (size := P.size) (rounds := V.before) (cost := V.cost tn) hV.before (ho y0 (bestSch_mem hy0))
  rw [a1] at h
  simp only at h
  split at h
  · simp at h
  rename_i tn1 sl1 y hl
  obtain ⟨b1, b2, b3, _⟩ := sliceLoop_spec hV hp h2 (sliceInv_nil hc) a2 (Or.inl rfl) hl
  obtain ⟨new, c1, c2, c3⟩ := y.optimize_good (size := P.size) (rounds := V.after) (cost := V.cost tn1) hV.after b2
  rw [c1] at h
  simp only at h
  generalize hr : (if new.cost.t ≤ 2 ^ P.maxTw then ({ new with cost := { new.cost with k := sl1.length } } : Sch) else
    if V.after = [] then { new with cost := { new.cost with k := sl1.length } } else y.mutated P.size V.after) = r at h
  have h' : r.cost.t ≤ 2 ^ P.maxTw ∧ r = res ∧ sl1 = sl := by
    split at h
    · rename_i hle
      simp only [Option.some.injEq, Prod.mk.injEq] at h
      exact ⟨hle, h.1, h.2⟩
    · simp at h
  obtain ⟨hle, rfl, rfl⟩ := h'
  refine and_assoc.1 ⟨?_, hle, b1.ok, b1.attached, b3, ?_⟩
  · rw [← hr]
    split
    · exact ⟨c2.valid, c2.single⟩
    · split
      · exact ⟨c2.valid, c2.single⟩
      · have : ValidOrder tn.nodes.keys (y.mutated P.size V.after).order (.str "#") ∧ SingleAssignment tn.nodes.keys (y.mutated P.size V.after).order := by
          unfold Sch.mutated
          split
          · exact ⟨b2.valid, b2.single⟩
          · exact ⟨(c33_flatten_partial _ _ _ b2.valid b2.single).1, (c33_flatten_partial _ _ _ b2.valid b2.single).2.1⟩
        exact this
  · by_cases hn : new.cost.t ≤ 2 ^ P.maxTw
    · left
      rw [if_pos hn] at hr
      rw [← hr]
      exact c2.pairs
    · by_cases he : V.after = []
      · left
        rw [if_neg hn, if_pos he] at hr
        rw [← hr]
        exact c2.pairs
      · right
        refine ⟨he, tn1, new.order, c2, ?_⟩
        have : new.cost = V.cost tn1 new.order := by
          unfold Sch.optimize at c1
          split at c1
          · rename_i hnil
            exact absurd hnil he
          · rw [Option.map_eq_some_iff] at c1
            obtain ⟨_, _, rfl⟩ := c1
            rfl
        rw [← this]
        omega

/-- **C58**: the only thing that can go wrong, given good orders: `_biggest_weight_edge` finds no range that ends on the stem. -/
theorem c58_raises {P : SliceParams} {V : SliceEnv τ} (hV : V.Good) {tn : TN τ} (hc : tn.Consistent) (hp : LegsPos tn)
    (h2 : 2 ≤ tn.nodes.keys.length) {orders : List Sch} (ho : ∀ y ∈ orders, GoodOrder tn.nodes.keys y.order) (hne : orders ≠ [])
    (h : sliceScheme P V tn orders = none) :
    0 < P.maxNumSlice ∧ ∃ tn1 sl o path g, SliceInv tn tn1 sl ∧ GoodOrder tn.nodes.keys o ∧
      (orderToPath tn1.nodes.keys o).bind pairsOfPath = some path ∧ Uct.make tn1.fixAll.subSets.1 tn1.fixAll.subSets.2 path = some g ∧
      g.spans V.enum = [] := by
  have key : ∀ (fuel i : Nat) (tn1 : TN τ) (sl : List Nm) (y : Sch), P.maxNumSlice.toNat < fuel + sl.length → 0 < fuel → SliceInv tn tn1 sl →
      GoodOrder tn.nodes.keys y.order → sliceLoop P V fuel i tn1 sl y = none →
      0 < P.maxNumSlice ∧ ∃ tn1 sl o path g, SliceInv tn tn1 sl ∧ GoodOrder tn.nodes.keys o ∧
      (orderToPath tn1.nodes.keys o).bind pairsOfPath = some path ∧ Uct.make tn1.fixAll.subSets.1 tn1.fixAll.subSets.2 path = some g ∧
      g.spans V.enum = [] := by
    intro fuel
    induction fuel with
    | zero => intro i tn1 sl y _ h; omega
    | succ fuel ih =>
      intro i tn1 sl y hf _ hI hy h
      unfold sliceLoop at h
      split at h
      · split at h
        · simp at h
        · rename_i hlt
          split at h
          · simp at h
          · obtain ⟨y1, a1, a2, _⟩ := y.optimize_good (size := P.size) (rounds := V.middle i) (cost := V.cost tn1) (hV.middle i) hy
            rw [a1] at h
            simp only at h
            obtain ⟨path, g, b1, b2, _, b4, b5⟩ := biggestEdge_spec hV.enum P.accept hI.cons (by rw [hI.keys]; exact a2.valid)
              (by rw [hI.keys]; exact a2.single) a2.pairs (by rw [hI.keys]; exact h2)
            by_cases hsp : g.spans V.enum = []
            · exact ⟨by omega, tn1, sl, y1.order, path, g, hI, a2, b1, b2, hsp⟩
            · obtain ⟨es, o, c1, c2, c3, c4, c5, c6, c7⟩ := b5 hsp
              rw [c1] at h
              simp only at h
              rw [hI.keys] at c5 c6
              obtain ⟨_, tn2, d1, d2⟩ := hI.step hp c4
              rw [d1] at h
              simp only at h
              obtain ⟨o', _, e1, e2, e3, _, e5, _⟩ := resolveOrder_good (hV.path i) c5 c6
              rw [e1] at h
              simp only at h
              have hl : (sl ++ es).length = sl.length + es.length := List.length_append
              have hpos := List.length_pos_iff.2 c2
              exact ih _ _ _ _ (by omega) (by omega) d2 ⟨e2, e3, e5 fun s hs => (c7 s hs).ge⟩ h
      · simp at h
  unfold sliceScheme at h
  split at h
  · rename_i hb
    cases orders with
    | nil => exact absurd rfl hne
    | cons y ys => simp [bestSch] at hb
  rename_i y0 hy0
  obtain ⟨y1, a1, a2, _⟩ := y0.optimize_good (size := P.size) (rounds := V.before) (cost := V.cost tn) hV.before (ho y0 (bestSch_mem hy0))
  rw [a1] at h
  simp only at h
  split at h
  · rename_i hl
    exact key _ _ _ _ _ (by simp) (by omega) (sliceInv_nil hc) a2 hl
  rename_i tn1 sl1 y hl
  obtain ⟨b1, b2, b3, _⟩ := sliceLoop_spec hV hp h2 (sliceInv_nil hc) a2 (Or.inl rfl) hl
  obtain ⟨new, c1, c2, c3⟩ := y.optimize_good (size := P.size) (rounds := V.after) (cost := V.cost tn1) hV.after b2
  rw [c1] at h
  simp only at h
  generalize (if new.cost.t ≤ 2 ^ P.maxTw then ({ new with cost := { new.cost with k := sl1.length } } : Sch) else
    if V.after = [] then { new with cost := { new.cost with k := sl1.length } } else y.mutated P.size V.after) = r at h
  split at h <;> simp at h

/-- **C58**, against the documentation: with `max_num_slice = -1`, which is the default and should mean that the number of
slices is not limited, nothing is ever sliced. -/
theorem c58_unlimited_violated {P : SliceParams} {V : SliceEnv τ} (hP : P.maxNumSlice = -1) {tn : TN τ} {orders : List Sch} {res : Sch}
    {sl : List Nm} (h : sliceScheme P V tn orders = some (some (res, sl))) : sl = [] := by
  unfold sliceScheme at h
  split at h
  · simp at h
  split at h
  · simp at h
  split at h
  · simp at h
  rename_i tn1 sl1 y hl
  have : sl1 = [] := by
    rw [hP] at hl
    unfold sliceLoop at hl
    rw [if_pos (show (([] : List Nm).length : Int) ≥ P.maxNumSlice by rw [hP]; decide)] at hl
    split at hl <;> (simp only [Option.some.injEq, Prod.mk.injEq] at hl; exact hl.2.1.symm)
  split at h
  · simp at h
  rename_i new _
  dsimp only at h
  generalize (if new.cost.t ≤ 2 ^ P.maxTw then ({ new with cost := { new.cost with k := sl1.length } } : Sch) else
    if V.after = [] then { new with cost := { new.cost with k := sl1.length } } else y.mutated P.size V.after) = r at h
  split at h
  · simp only [Option.some.injEq, Prod.mk.injEq] at h
    rw [← h.2, this]
  · simp at h

section
variable {R : Type} [CommSemiring R] [Star R] {L : Type} [AddCommMonoid L] {contract : TVal R → Option (Arr R)}
  {tn tn' : TN (TVal R)} {srt : List Nm → List Nm} {E : Engine L R} {ex : L → R} {memory : Nat}

/-- **C58**, with **C01** and **C03**: contracting with a scheme of the slicer gives the Einstein sum of the network.  Partial:
the order must be pairwise (it is, unless the last optimisation made it too wide), and not all sliced edges may have dimension
one if one of them is open. -/
theorem c58_contract_partial (hE : E.Sound ex) (hsrt : ∀ l, (srt l).Perm l) (hC : CompletableFor TVal.val contract tn)
    (hF : ClosedFixOK tn) (hd : tn.completeDelta = (tn', .ok ())) {P : SliceParams} {V : SliceEnv (TVal R)} (hV : V.Good) (hp : LegsPos tn')
    (h2 : 2 ≤ tn'.nodes.keys.length) {orders : List Sch} (ho : ∀ y ∈ orders, GoodOrder tn'.nodes.keys y.order) {res : Sch} {sl : List Nm}
    (h : sliceScheme P V tn' orders = some (some (res, sl))) {width : Nat} (hw : width * 3 * 2 ^ 4 ≤ memory * 2 ^ 30)
    (hafter : V.after = [] ∨ Pairwise2 res.order)
    (hopen : (∀ e ∈ sl, e ∉ tn'.openE) ∨ ∃ e ∈ sl, tn'.edges.get? e ≠ some ⟨some 1, none⟩) :
    ∃ r, tn.compileExec contract memory srt E ex ⟨width, res.order, sl⟩ = .ok r ∧ Represents TVal.val tn r := by
  obtain ⟨tn2, h1, hc, _⟩ := hC.complete
  rw [hd, Prod.mk.injEq] at h1
  obtain ⟨rfl, _⟩ := h1
  obtain ⟨a1, a2, a3, a4, a5, a6, a7⟩ := c58_slice_partial hV hc hp h2 ho h
  have hpair : Pairwise2 res.order := by
    rcases hafter with h | h
    · rcases a7 with k | ⟨k, _⟩
      · exact k
      · exact absurd h k
    · exact h
  exact compileExec_spec hE hsrt hC hF hd ⟨Or.inr ⟨_, a1, hpair⟩, hw⟩ ⟨a4, a5, hopen⟩

end

/-! ## Concrete cases -/

/-- A set read in increasing order. -/
def enumSet (S : Finset Nat) : List Nat := (List.range (S.sup id + 1)).filter (· ∈ S)

theorem mem_enumSet (S : Finset Nat) (a : Nat) : a ∈ enumSet S ↔ a ∈ S := by
  unfold enumSet
  rw [List.mem_filter, List.mem_range, decide_eq_true_eq]
  refine ⟨fun h => h.2, fun h => ⟨?_, h⟩⟩
  have : a ≤ S.sup id := Finset.le_sup (f := id) h
  omega

/-- A node with legs of dimension two. -/
def sliceTen (k : Nat) (l : List Nat) : Op Shp :=
  .addNode (some (.int k)) (.int k) (some (l.map fun e => .int (100 + e))) (shp (l.map fun _ => 2)) false

/-- Eight tensors. -/
def twiceOps : List (Op Shp) :=
  [sliceTen 0 [4, 5, 6, 8], sliceTen 1 [5, 10], sliceTen 2 [6, 8], sliceTen 3 [1], sliceTen 4 [0, 1, 3, 7, 9, 11],
   sliceTen 5 [0, 2, 3, 4, 9], sliceTen 6 [7, 10], sliceTen 7 [2, 11]]

/-- An order of the eight tensors. -/
def twiceOrder : List OrderStep :=
  [([.int 2, .int 1], .str "s0"), ([.int 3, .int 7], .str "s1"), ([.str "s0", .int 4], .str "s2"), ([.int 6, .str "s2"], .str "s3"),
   ([.str "s3", .str "s1"], .str "s4"), ([.int 5, .str "s4"], .str "s5"), ([.int 0, .str "s5"], .str "#")]

/-- The network of `twiceOps`. -/
def twiceNet : TN Shp := (TN.run {} twiceOps).getD {}

/-- The default threshold, 0.02. -/
def defaultAccept (cur c : Int) : Bool := decide (100 * cur < 51 * c)

/-- A check of orders. -/
def orderB (last : Nm) : List Nm → List OrderStep → Bool
  | ns, [] => decide (ns = [last])
  | ns, (xs, z) :: o => decide (xs ≠ []) && decide (ns.Perm (xs ++ ns.diff xs)) && decide (z ∉ ns.diff xs) && orderB last (z :: ns.diff xs) o

theorem validOrder_of_B {last : Nm} : ∀ {ns : List Nm} {o : List OrderStep}, orderB last ns o = true → ValidOrder ns o last
  | ns, [], h => by
    rw [orderB, decide_eq_true_eq] at h
    rw [h]
    exact .done _
  | ns, (xs, z) :: o, h => by
    simp only [orderB, Bool.and_eq_true, decide_eq_true_eq] at h
    exact .step h.1.1.2 h.1.1.1 h.1.2 (validOrder_of_B h.2)

/-- A check of `GoodOrder`. -/
def goodB (ns : List Nm) (o : List OrderStep) : Bool :=
  orderB (.str "#") ns o && decide (ns ++ o.map (·.2)).Nodup && o.all fun s => decide (s.1.length = 2)

theorem goodOrder_of_B {ns : List Nm} {o : List OrderStep} (h : goodB ns o = true) : GoodOrder ns o := by
  simp only [goodB, Bool.and_eq_true, decide_eq_true_eq, List.all_eq_true] at h
  exact ⟨validOrder_of_B h.1.1, h.1.2, h.2⟩

/-- A check of `LegsPos`. -/
def TN.legsPosB {τ : Type} (tn : TN τ) : Bool :=
  tn.nodes.all fun p => p.2.legs.all fun e => match (tn.edges.get? e).bind (·.dim) with
    | some d => decide (0 < d)
    | none => false

theorem legsPos_of_B {τ : Type} {tn : TN τ} (h : tn.legsPosB = true) : LegsPos tn := by
  intro n r hr e he
  have h1 := List.all_eq_true.1 (List.all_eq_true.1 h _ (Dict.mem_of_get? hr)) e he
  cases hx : tn.edges.get? e with
  | none => rw [hx] at h1; simp at h1
  | some er =>
    rw [hx, Option.bind_some] at h1
    cases hy : er.dim with
    | none => rw [hy] at h1; simp at h1
    | some d => rw [hy] at h1; exact ⟨er, d, rfl, hy, by simpa using h1⟩

/-- No local optimisation; the cost of a sliced network is said to be 4. -/
def plainSlicing {τ : Type} : SliceEnv τ where
  before := []
  middle := fun _ => []
  after := []
  path := fun _ => firstTwo
  cost := fun _ o => ⟨o.length, 4, 0⟩
  enum := enumSet

theorem plainSlicing_good {τ : Type} : (plainSlicing (τ := τ)).Good :=
  ⟨by simp [plainSlicing], by simp [plainSlicing], by simp [plainSlicing], fun _ => firstTwo_good, mem_enumSet⟩

theorem twice_ok : twiceNet.Consistent ∧ LegsPos twiceNet ∧ 2 ≤ twiceNet.nodes.keys.length ∧ GoodOrder twiceNet.nodes.keys twiceOrder :=
  ⟨c11_consistent_partial (ops := twiceOps) ⟨trivial, trivial, trivial, trivial, trivial, trivial, trivial, trivial, trivial⟩ rfl,
    legsPos_of_B (by decide +kernel), by decide +kernel, goodOrder_of_B (by decide +kernel)⟩

/-- **C58**, against the intention: with the default threshold the same edge is sliced twice, and counted twice.  (The value
stays right, `c58_contract_partial`.) -/
theorem c58_twice_violated : ∃ res, sliceScheme ⟨2, 3, 4, defaultAccept⟩ plainSlicing twiceNet [⟨twiceOrder, ⟨0, 8, 0⟩⟩] =
    some (some (res, [.int 100, .int 100])) ∧ res.cost.k = 2 := by
  have h : (sliceScheme ⟨2, 3, 4, defaultAccept⟩ plainSlicing twiceNet [⟨twiceOrder, ⟨0, 8, 0⟩⟩]).map
      (Option.map fun x => (x.1.cost.k, x.2)) = some (some (2, [.int 100, .int 100])) := by decide +kernel
  cases hx : sliceScheme ⟨2, 3, 4, defaultAccept⟩ plainSlicing twiceNet [⟨twiceOrder, ⟨0, 8, 0⟩⟩] with
  | none => rw [hx] at h; simp at h
  | some y =>
    rw [hx] at h
    cases y with
    | none => simp at h
    | some z =>
      obtain ⟨res, sl⟩ := z
      simp only [Option.map_some, Option.some.injEq, Prod.mk.injEq] at h
      exact ⟨res, by rw [h.2], h.1⟩

/-- `c58_slice_partial` and `c58_edge_partial` on this network. -/
example : ∃ res sl, sliceScheme ⟨2, 3, 4, defaultAccept⟩ plainSlicing twiceNet [⟨twiceOrder, ⟨0, 8, 0⟩⟩] = some (some (res, sl)) ∧ sl ≠ [] ∧
    ValidOrder twiceNet.nodes.keys res.order (.str "#") ∧ Pairwise2 res.order := by
  obtain ⟨res, h, _⟩ := c58_twice_violated
  obtain ⟨k1, k2, k3, k4⟩ := twice_ok
  obtain ⟨a1, _, _, _, _, _, a7⟩ := c58_slice_partial plainSlicing_good k1 k2 k3 (by simpa using k4) h
  refine ⟨res, _, h, by simp, a1, ?_⟩
  rcases a7 with a | ⟨a, _⟩
  · exact a
  · exact absurd rfl a

example : ∃ es o, biggestEdge enumSet defaultAccept twiceNet twiceOrder = some (es, o) ∧ es = [.int 100, .int 100] ∧
    ValidOrder twiceNet.nodes.keys o (.str "#") := by
  obtain ⟨k1, k2, k3, k4⟩ := twice_ok
  have h : (biggestEdge enumSet defaultAccept twiceNet twiceOrder).map Prod.fst = some [.int 100, .int 100] := by decide +kernel
  rw [Option.map_eq_some_iff] at h
  obtain ⟨⟨es, o⟩, h1, h2⟩ := h
  obtain ⟨path, g, _, _, _, _, k⟩ := c58_edge_partial mem_enumSet defaultAccept k1 k4.valid k4.single k4.pairs k3
  obtain ⟨_, _, _, k5, _⟩ := k es o h1
  exact ⟨es, o, h1, h2, k5⟩

/-- `c58_ranges`: subscript 2 of the operands around a ring, on the first two vertices of the stem. -/
example : ∃ g, chainTree = some g ∧ HasSub [{0, 1}, {1, 2, 7}, {2, 3, 5}, {3, 4}, {4, 6}, {6, 0, 7}] {5} g.adj (g.parent (g.stem.getD 1 0)) (g.stem.getD 1 0) 2 ∧
    ¬ HasSub [{0, 1}, {1, 2, 7}, {2, 3, 5}, {3, 4}, {4, 6}, {6, 0, 7}] {5} g.adj (g.parent (g.stem.getD 2 0)) (g.stem.getD 2 0) 2 := by
  obtain ⟨g, h1, h2, _⟩ := c57_init (lhs := [{0, 1}, {1, 2, 7}, {2, 3, 5}, {3, 4}, {4, 6}, {6, 0, 7}]) (rhs := {5})
    (path := [(0, 1), (0, 4), (0, 3), (0, 2), (0, 1)]) (by simp)
    (.two (by decide) (by decide) (by decide) (.two (by decide) (by decide) (by decide) (.two (by decide) (by decide) (by decide)
      (.two (by decide) (by decide) (by decide) (.two (by decide) (by decide) (by decide) .done)))))
  have h3 : (chainTree.map fun g => g.spans enumSet) = some [(1, 0, 1), (2, 0, 2), (3, 2, 3), (4, 3, 4)] := by decide +kernel
  have h4 : chainTree = some g := h1
  rw [h4, Option.map_some, Option.some.injEq] at h3
  have h5 : (2, 0, 2) ∈ g.spans enumSet := by rw [h3]; simp
  obtain ⟨_, _, k1, k2, _⟩ := (c58_ranges mem_enumSet h2).1 h5
  exact ⟨g, h4, k1 1 (by omega) (by omega), k2⟩

/-- `c58_unlimited_violated`: what the default does: a scheme that is too wide is given up, one that is not is kept. -/
example : sliceScheme ⟨2, -1, 4, defaultAccept⟩ plainSlicing twiceNet [⟨twiceOrder, ⟨0, 8, 0⟩⟩] = some none ∧
    sliceScheme ⟨3, -1, 4, defaultAccept⟩ plainSlicing twiceNet [⟨twiceOrder, ⟨0, 8, 0⟩⟩] = some (some (⟨twiceOrder, ⟨0, 8, 0⟩⟩, [])) := by
  constructor <;> rfl

/-- `c58_two_nodes_violated`, `c58_raises`: two matrices with a common edge, where the limit cannot be met without slicing. -/
example : ∃ tn : TN Shp, TN.run {} [sliceTen 0 [0, 1], sliceTen 1 [1, 2]] = some tn ∧ tn.Consistent ∧ LegsPos tn ∧
    GoodOrder tn.nodes.keys [([.int 0, .int 1], .str "#")] ∧
    biggestEdge enumSet defaultAccept tn [([.int 0, .int 1], .str "#")] = none ∧
    sliceScheme ⟨2, 3, 4, defaultAccept⟩ plainSlicing tn [⟨[([.int 0, .int 1], .str "#")], ⟨0, 8, 0⟩⟩] = none := by
  have hc : TN.Consistent _ := c11_consistent_partial (ops := [sliceTen 0 [0, 1], sliceTen 1 [1, 2]]) ⟨trivial, trivial, trivial⟩ rfl
  have hg : GoodOrder [.int 0, .int 1] [([.int 0, .int 1], .str "#")] := goodOrder_of_B (by decide +kernel)
  refine ⟨_, rfl, hc, legsPos_of_B (by decide +kernel), hg, c58_two_nodes_violated mem_enumSet defaultAccept hc hg.valid hg.single hg.pairs rfl, ?_⟩
  have : ∀ x : Option (Option (Sch × List Nm)), x.isNone = true → x = none := by
    intro x h; cases x with
    | none => rfl
    | some => simp at h
  exact this _ (by decide +kernel)

/-- One round of optimisation at the end, after which the scheme is said to be too wide. -/
def wideAfter {τ : Type} : SliceEnv τ where
  before := []
  middle := fun _ => []
  after := [(0, fun _ => 8, firstTwo)]
  path := fun _ => firstTwo
  cost := fun _ o => ⟨o.length, 8, 0⟩
  enum := enumSet

/-- **C58**, against the intention: if the last optimisation makes the scheme too wide, the scheme before it should be returned.
But `_flatten_order` has worked on its order in place: the order returned is the flattened one, in which a step has three
operands.  (The compiler only looks at the first two.) -/
theorem c58_mutated_violated : ∃ (tn : TN Shp) (res : Sch), TN.run {} [.addNode (some (.str "a")) (.int 0) (some [.str "x", .str "y"]) (shp [2, 2]) false,
      .addNode (some (.str "b")) (.int 1) (some [.str "y", .str "z"]) (shp [2, 2]) false,
      .addNode (some (.str "c")) (.int 2) (some [.str "z", .str "w"]) (shp [2, 2]) false,
      .addNode (some (.str "d")) (.int 3) (some [.str "w", .str "x"]) (shp [2, 2]) false] = some tn ∧
    GoodOrder tn.nodes.keys pairOrder ∧ (wideAfter (τ := Shp)).Good ∧
    sliceScheme ⟨2, 3, 4, defaultAccept⟩ wideAfter tn [⟨pairOrder, ⟨0, 4, 0⟩⟩] = some (some (res, [])) ∧ ¬ Pairwise2 res.order := by
  refine ⟨_, ⟨[([.str "a", .str "b"], .str "x"), ([.str "x", .str "c", .str "d"], .str "#")], ⟨0, 4, 0⟩⟩, rfl,
    ⟨pairOrder_ok.1, pairOrder_ok.2.1, pairOrder_ok.2.2⟩, ⟨by simp [wideAfter], by simp [wideAfter], ?_, fun _ => firstTwo_good, mem_enumSet⟩, rfl, ?_⟩
  · intro r hr
    simp only [wideAfter, List.mem_singleton] at hr
    rw [hr]
    exact firstTwo_good
  · unfold Pairwise2
    decide

/-- Eight operands. -/
def staleOps : List (Finset Nat) :=
  [{0, 3, 10, 11}, {2, 6}, {0, 1, 9, 11}, {8, 10}, {6, 7, 9}, {4, 8}, {1, 3, 5}, {2, 4, 5, 7}]

/-- The cost after taking out one subscript, and after taking out another one from the resulting tree; and the cost of the path of
that tree for the operands without the two subscripts. -/
def secondCost (lhs : List (Finset Nat)) (path : List (Nat × Nat)) (s t : Nat × Nat × Nat) : Option (Int × Int × Int × Nat) :=
  (Uct.make lhs ∅ path).bind fun g => (g.without s).bind fun r => (r.1.without t).bind fun q => q.1.getPath.map fun p =>
    (g.cost, r.2, q.2, pathCost ∅ (lhs.map (· \ {s.1, t.1})) p)

/-- **C58**, against the intention: the cost `_biggest_weight_edge` compares is not the cost of the tree without the subscripts.
Taking out 10 more than halves the cost (1632, 608), so that it is taken at once.  Then 448 is computed for taking out 5, too,
where the cost is 352: the subscripts at the edges are recomputed from those of edges not yet recomputed (slicer.py:116-120). -/
theorem c58_cost_violated : (staleOps.length = 8 ∧ ValidPath 8 ([(0, 3), (3, 0), (4, 3), (2, 0), (3, 2), (2, 1), (1, 0)].map fun e : Nat × Nat => [e.1, e.2])) ∧
    ((Uct.make staleOps ∅ [(0, 3), (3, 0), (4, 3), (2, 0), (3, 2), (2, 1), (1, 0)]).map fun g =>
      decide ((10, 0, 1) ∈ Uct.longest (g.spans enumSet) ∧ (5, 2, 3) ∈ Uct.longest (g.spans enumSet))) = some true ∧
    defaultAccept 608 1632 = true ∧
    secondCost staleOps [(0, 3), (3, 0), (4, 3), (2, 0), (3, 2), (2, 1), (1, 0)] (10, 0, 1) (5, 2, 3) = some (1632, 608, 448, 352) :=
  ⟨⟨rfl, .two (by decide) (by decide) (by decide) (.two (by decide) (by decide) (by decide) (.two (by decide) (by decide) (by decide)
      (.two (by decide) (by decide) (by decide) (.two (by decide) (by decide) (by decide) (.two (by decide) (by decide) (by decide)
      (.two (by decide) (by decide) (by decide) .done))))))⟩, by decide +kernel, by decide +kernel, by decide +kernel⟩

/-- An order of the four tensors of `khpTriangle`. -/
def triOrder : List OrderStep :=
  [([.str "a", .str "d"], .str "s0"), ([.str "s0", .str "b"], .str "s1"), ([.str "s1", .str "c"], .str "#")]

/-- `c58_contract_partial`: an edge of the triangle is sliced, and the contraction gives the Einstein sum. -/
example : ∃ (tn tn' : TN (TVal Nat)) (res : Sch) (r : Arr Nat), TN.run {} khpTriangle = some tn ∧ tn.completeDelta = (tn', .ok ()) ∧
    sliceScheme ⟨2, 3, 4, defaultAccept⟩ plainSlicing tn' [⟨triOrder, ⟨0, 8, 0⟩⟩] = some (some (res, [.str "y"])) ∧
    tn.compileExec arrContract 16 id plainEngine (fun _ => 1) ⟨8, res.order, [.str "y"]⟩ = .ok r ∧ Represents TVal.val tn r := by
  obtain ⟨tn, h0, hC, hF, _⟩ := khpTriangle_ok
  obtain ⟨tn', hd, _⟩ := hC.complete
  have h : (sliceScheme ⟨2, 3, 4, defaultAccept⟩ plainSlicing tn' [⟨triOrder, ⟨0, 8, 0⟩⟩]).map
      (Option.map fun x => x.2) = some (some [.str "y"]) ∧ tn'.legsPosB = true ∧ 2 ≤ tn'.nodes.keys.length ∧ goodB tn'.nodes.keys triOrder = true ∧
      (∀ e ∈ [Nm.str "y"], e ∉ tn'.openE) := by
    cases h0
    cases hd
    refine ⟨?_, ?_, ?_, ?_, ?_⟩ <;> decide +kernel
  obtain ⟨h, h1, h2, h3, h4⟩ := h
  cases hx : sliceScheme ⟨2, 3, 4, defaultAccept⟩ plainSlicing tn' [⟨triOrder, ⟨0, 8, 0⟩⟩] with
  | none => rw [hx] at h; simp at h
  | some y =>
    rw [hx] at h
    cases y with
    | none => simp at h
    | some z =>
      obtain ⟨res, sl⟩ := z
      simp only [Option.map_some, Option.some.injEq] at h
      subst h
      obtain ⟨r, hr⟩ := c58_contract_partial (srt := id) (memory := 16) plainEngine_sound (fun l => List.Perm.refl l) hC hF hd plainSlicing_good
        (legsPos_of_B h1) h2 (by simpa using goodOrder_of_B h3) hx (width := 8) (by omega) (Or.inl rfl) (Or.inl h4)
      exact ⟨tn, tn', res, r, h0, hd, hx, hr⟩

end Verif
