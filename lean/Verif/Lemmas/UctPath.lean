import Verif.Lemmas.UctStep
import Verif.Spec.PathCost
import Mathlib.Algebra.BigOperators.Ring.Finset
/-!
# `UndirectedContractionTree`: the path read off the tree, and its cost
-/

namespace Verif

open UT

/-- The parents in a part of the tree lead to `p`. -/
def UT.Par (parent : Nat → Nat) : Nat → UT → Prop
  | p, leaf v => parent v = p
  | p, node v l r => parent v = p ∧ Par parent v l ∧ Par parent v r

theorem UT.Par.top {parent : Nat → Nat} {p : Nat} {T : UT} (h : Par parent p T) : parent T.top = p := by
  cases T with
  | leaf v => exact h
  | node v l r => exact h.1

/-- The contractions of a part of the tree, in order. -/
def UT.steps : UT → List (Nat × Nat × Nat)
  | leaf _ => []
  | node v l r => l.steps ++ r.steps ++ [(l.top, r.top, v)]

theorem erase_erase_eq : ∀ {l : List Nat} {x y : Nat}, x ∈ l → y ∈ l → x ≠ y →
    (l.erase x).erase y = (l.eraseIdx (max (l.idxOf x) (l.idxOf y))).eraseIdx (min (l.idxOf x) (l.idxOf y)) := by
  intro l
  induction l with
  | nil => intro x y hx; simp at hx
  | cons z t ih =>
    intro x y hx hy hxy
    by_cases h1 : z = x
    · subst h1
      have h2 : (z :: t).idxOf y = t.idxOf y + 1 := List.idxOf_cons_ne _ hxy
      rw [List.erase_cons_head, List.idxOf_cons_self, h2]
      simp only [Nat.zero_le, Nat.max_eq_right, Nat.min_eq_left, List.eraseIdx_cons_succ, List.eraseIdx_cons_zero]
      rw [List.erase_eq_eraseIdx_of_idxOf (i := t.idxOf y) rfl]
    · have hx' : x ∈ t := by simpa [Ne.symm h1] using hx
      have e1 : (z :: t).idxOf x = t.idxOf x + 1 := List.idxOf_cons_ne _ h1
      rw [List.erase_cons_tail (by simpa using h1), e1]
      by_cases h2 : z = y
      · subst h2
        rw [List.erase_cons_head, List.idxOf_cons_self]
        simp only [Nat.zero_le, Nat.max_eq_left, Nat.min_eq_right, List.eraseIdx_cons_succ, List.eraseIdx_cons_zero]
        rw [List.erase_eq_eraseIdx_of_idxOf (i := t.idxOf x) rfl]
      · have hy' : y ∈ t := by simpa [Ne.symm h2] using hy
        have e2 : (z :: t).idxOf y = t.idxOf y + 1 := List.idxOf_cons_ne _ h2
        rw [List.erase_cons_tail (by simpa using h2), e2, Nat.add_max_add_right, Nat.add_min_add_right, List.eraseIdx_cons_succ,
          List.eraseIdx_cons_succ, ih hx' hy' hxy]

theorem mem_indexUnion {ops : List (Finset Nat)} {e : Nat} : e ∈ indexUnion ops ↔ ∃ s ∈ ops, e ∈ s := by
  induction ops with
  | nil => simp [indexUnion]
  | cons s t ih =>
    have : indexUnion (s :: t) = s ∪ indexUnion t := rfl
    rw [this, Finset.mem_union, ih]
    simp

theorem stepCost_eq {s0 s1 s : Finset Nat} (h : s ⊆ s0 ∪ s1) : Uct.stepCost s0 s1 s = contractionCost s0 s1 s := by
  unfold Uct.stepCost contractionCost
  rw [Finset.union_eq_left.2 h]
  by_cases h1 : s0 ∪ s1 ⊆ s
  · rw [if_pos h1, if_neg (by simpa [Finset.sdiff_eq_empty_iff_subset] using h1)]
    simp
  · rw [if_neg h1, if_pos (by simpa [Finset.sdiff_eq_empty_iff_subset] using h1)]
    rw [Nat.mul_comm]

namespace Uct

theorem positions_append : ∀ (a b : List (Nat × Nat × Nat)) (ops : List Nat) {path ops'},
    positions ops a = some (path, ops') → positions ops (a ++ b) = (positions ops' b).map fun r => (path ++ r.1, r.2) := by
  intro a
  induction a with
  | nil =>
    intro b ops path ops' h
    simp only [positions, Option.some.injEq, Prod.mk.injEq] at h
    obtain ⟨rfl, rfl⟩ := h
    simp
  | cons s a ih =>
    intro b ops path ops' h
    obtain ⟨c0, c1, v⟩ := s
    rw [List.cons_append]
    rw [positions] at h ⊢
    split at h
    · rename_i hc
      rw [if_pos hc]
      cases hp : positions ((ops.erase c0).erase c1 ++ [v]) a with
      | none => rw [hp] at h; simp at h
      | some r =>
        rw [hp] at h
        simp only [Option.map_some, Option.some.injEq, Prod.mk.injEq] at h
        obtain ⟨rfl, rfl⟩ := h
        rw [ih b _ (path := r.1) (ops' := r.2) hp, Option.map_map]
        rfl
    · simp at h

/-- The subscripts below and outside a vertex, and those that its tensor has. -/
def sb (g : Uct) (y : Nat) : Finset Nat := g.sd (g.parent y) y
/-- The subscripts of the operands that are not below a vertex. -/
def ou (g : Uct) (y : Nat) : Finset Nat := g.sd y (g.parent y)
/-- The subscripts of the tensor at a vertex. -/
def red (g : Uct) (y : Nat) : Finset Nat := g.openAt (g.parent y) y

theorem red_eq (g : Uct) (y : Nat) : g.red y = if y < g.n then g.sb y else g.sb y ∩ (g.ou y ∪ g.opn) := rfl

theorem red_sub (g : Uct) (y : Nat) : g.red y ⊆ g.sb y := by
  rw [red_eq]
  split
  · exact Finset.Subset.refl _
  · exact Finset.inter_subset_left

theorem mem_red {g : Uct} {y e : Nat} (h1 : e ∈ g.sb y) (h2 : e ∈ g.ou y ∪ g.opn) : e ∈ g.red y := by
  rw [red_eq]
  split
  · exact h1
  · exact Finset.mem_inter.2 ⟨h1, h2⟩

/-- The subscripts around a contraction. -/
theorem Inv.sides_node {g : Uct} (h : g.Inv) {p : Nat} {v : Nat} {l r : UT} (hs : Shape g.n g.adj p (.node v l r)) (hp : p < 2 * g.n - 2)
    (hl : ∀ x ∈ (UT.node v l r).labels, x < 2 * g.n - 2) :
    g.sd p v = g.sd v l.top ∪ g.sd v r.top ∧ g.sd l.top v = g.sd v p ∪ g.sd v r.top ∧ g.sd r.top v = g.sd v p ∪ g.sd v l.top ∧
    g.nb v = {p, l.top, r.top} ∧ p ≠ l.top ∧ p ≠ r.top ∧ l.top ≠ r.top := by
  have hv : v < 2 * g.n - 2 := hl v (by simp [labels])
  have hn := (h.nbrs hv).1
  rw [hs.2.1.nodup_iff] at hn
  simp only [List.nodup_cons, List.mem_cons, List.not_mem_nil, or_false, not_or, List.nodup_nil, and_true, not_false_eq_true] at hn
  have hnb : g.nb v = {p, l.top, r.top} := toFinset_perm hs.2.1
  have m : ∀ x ∈ g.nb v, v ∈ g.adj x := fun x hx => ((h.nbrs hv).2.2 x (mem_nb.1 hx)).1
  have hlt : l.top < 2 * g.n - 2 := hl _ (by simp [labels, l.top_mem])
  have hrt : r.top < 2 * g.n - 2 := hl _ (by simp [labels, r.top_mem])
  refine ⟨?_, ?_, ?_, hnb, hn.1.1, hn.1.2, hn.2⟩
  · rw [h.sides.node p v hp (m p (by rw [hnb]; simp)) hs.1, hnb, Sw.three1 hn.1.1 hn.1.2]
  · rw [h.sides.node l.top v hlt (m l.top (by rw [hnb]; simp)) hs.1, hnb, Sw.three2 (Ne.symm hn.1.1) hn.2]
  · rw [h.sides.node r.top v hrt (m r.top (by rw [hnb]; simp)) hs.1, hnb, Sw.three3 (Ne.symm hn.1.2) (Ne.symm hn.2)]

/-- Beyond an edge are the subscripts of the operands there. -/
theorem Inv.sd_leaves {g : Uct} (h : g.Inv) {p : Nat} {T : UT} (hs : Shape g.n g.adj p T) (hq : Par g.parent p T) (hp : p < 2 * g.n - 2)
    (hl : ∀ x ∈ T.labels, x < 2 * g.n - 2) : g.sd p T.top = T.leaves.toFinset.biUnion g.sb := by
  induction T generalizing p with
  | leaf v =>
    show g.sd p v = ([v] : List Nat).toFinset.biUnion g.sb
    simp only [List.toFinset_cons, List.toFinset_nil, insert_empty_eq, Finset.singleton_biUnion]
    unfold sb
    rw [show g.parent v = p from hq]
  | node v l r ihl ihr =>
    have hv : v < 2 * g.n - 2 := hl v (by simp [labels])
    have hn := h.sides_node hs hp hl
    show g.sd p v = _
    rw [hn.1, ihl hs.2.2.1 hq.2.1 hv (fun x hx => hl x (by simp [labels, hx])),
      ihr hs.2.2.2 hq.2.2 hv (fun x hx => hl x (by simp [labels, hx]))]
    rw [leaves, List.toFinset_append, Finset.union_biUnion]

/-- What is outside a part of the tree is outside its operands. -/
theorem Inv.outside {g : Uct} (h : g.Inv) {p : Nat} {T : UT} (hs : Shape g.n g.adj p T) (hq : Par g.parent p T) (hp : p < 2 * g.n - 2)
    (hl : ∀ x ∈ T.labels, x < 2 * g.n - 2) : ∀ y ∈ T.leaves, g.sd T.top p ⊆ g.ou y := by
  induction T generalizing p with
  | leaf v =>
    intro y hy
    simp only [leaves, List.mem_singleton] at hy
    subst hy
    unfold ou
    rw [show g.parent y = p from hq]
    exact Finset.Subset.refl _
  | node v l r ihl ihr =>
    have hv : v < 2 * g.n - 2 := hl v (by simp [labels])
    have hn := h.sides_node hs hp hl
    intro y hy
    rw [leaves, List.mem_append] at hy
    show g.sd v p ⊆ _
    rcases hy with hy | hy
    · refine Finset.Subset.trans ?_ (ihl hs.2.2.1 hq.2.1 hv (fun x hx => hl x (by simp [labels, hx])) y hy)
      rw [hn.2.1]
      exact Finset.subset_union_left
    · refine Finset.Subset.trans ?_ (ihr hs.2.2.2 hq.2.2 hv (fun x hx => hl x (by simp [labels, hx])) y hy)
      rw [hn.2.2.1]
      exact Finset.subset_union_left

/-- The result of a contraction. -/
theorem Inv.keep {g : Uct} (h : g.Inv) {p : Nat} {v : Nat} {l r : UT} (hs : Shape g.n g.adj p (.node v l r))
    (hq : Par g.parent p (.node v l r)) (hp : p < 2 * g.n - 2) (hl : ∀ x ∈ (UT.node v l r).labels, x < 2 * g.n - 2) {rest : List Nat}
    (H : g.sd v p = rest.toFinset.biUnion g.sb) (K : ∀ y ∈ rest, g.sd p v ⊆ g.ou y) :
    (g.red l.top ∪ g.red r.top) ∩ (indexUnion (rest.map g.red) ∪ g.opn) = g.red v ∧
    contractionCost (g.red l.top) (g.red r.top) (g.red v) = g.vcost v := by
  have hn := h.sides_node hs hp hl
  have pl : g.parent l.top = v := hq.2.1.top
  have pr : g.parent r.top = v := hq.2.2.top
  have pv : g.parent v = p := hq.1
  have esb : g.sb v = g.sb l.top ∪ g.sb r.top := by
    unfold sb
    rw [pl, pr, pv]
    exact hn.1
  have eol : g.ou l.top = g.ou v ∪ g.sb r.top := by
    unfold sb ou
    rw [pl, pr, pv]
    exact hn.2.1
  have eor : g.ou r.top = g.ou v ∪ g.sb l.top := by
    unfold sb ou
    rw [pl, pr, pv]
    exact hn.2.2.1
  have H' : g.ou v = rest.toFinset.biUnion g.sb := by
    unfold ou
    rw [pv, H]
  have K' : ∀ y ∈ rest, g.sb v ⊆ g.ou y := by
    unfold sb
    rw [pv]
    exact K
  have hrv : g.red v = g.sb v ∩ (g.ou v ∪ g.opn) := by
    rw [red_eq, if_neg (Nat.not_lt.2 hs.1)]
  have key : (g.red l.top ∪ g.red r.top) ∩ (indexUnion (rest.map g.red) ∪ g.opn) = g.red v := by
    rw [hrv]
    ext e
    simp only [Finset.mem_inter, Finset.mem_union]
    constructor
    · rintro ⟨h1, h2⟩
      refine ⟨?_, ?_⟩
      · rw [esb, Finset.mem_union]
        exact h1.imp (fun x => g.red_sub _ x) (fun x => g.red_sub _ x)
      · refine h2.imp (fun x => ?_) id
        obtain ⟨s, hs1, hs2⟩ := mem_indexUnion.1 x
        obtain ⟨y, hy, rfl⟩ := List.mem_map.1 hs1
        rw [H', Finset.mem_biUnion]
        exact ⟨y, List.mem_toFinset.2 hy, g.red_sub _ hs2⟩
    · rintro ⟨h1, h2⟩
      refine ⟨?_, ?_⟩
      · rw [esb, Finset.mem_union] at h1
        refine h1.imp (fun x => mem_red x ?_) (fun x => mem_red x ?_)
        · rw [eol]
          simp only [Finset.mem_union]
          tauto
        · rw [eor]
          simp only [Finset.mem_union]
          tauto
      · refine h2.imp (fun x => ?_) id
        rw [H', Finset.mem_biUnion] at x
        obtain ⟨y, hy, hy2⟩ := x
        rw [List.mem_toFinset] at hy
        exact mem_indexUnion.2 ⟨_, List.mem_map_of_mem hy, mem_red hy2 (Finset.mem_union_left _ (K' y hy h1))⟩
  refine ⟨key, ?_⟩
  rw [← stepCost_eq (by rw [← key]; exact Finset.inter_subset_left)]
  unfold vcost red
  rw [pl, pr, pv, hn.2.2.2.1, Sw.three1 hn.2.2.2.2.1 hn.2.2.2.2.2.1, ← stepCost_union]

/-- Contracting a part of the tree: the steps taken as positions, what is left, and the cost. -/
theorem Inv.run {g : Uct} (h : g.Inv) {p : Nat} {T : UT} (hs : Shape g.n g.adj p T) (hq : Par g.parent p T) (hp : p < 2 * g.n - 2)
    (hl : ∀ x ∈ T.labels, x < 2 * g.n - 2) {rest ops : List Nat} (ho : ops.Perm (T.leaves ++ rest)) (hd : (T.labels ++ rest).Nodup)
    (H : g.sd T.top p = rest.toFinset.biUnion g.sb) (K : ∀ y ∈ rest, g.sd p T.top ⊆ g.ou y) :
    ∃ path ops', positions ops T.steps = some (path, ops') ∧ ops'.Perm (T.top :: rest) ∧
      (∀ q, pathCost g.opn (ops.map g.red) (path ++ q) = (T.inner.map g.vcost).sum + pathCost g.opn (ops'.map g.red) q) ∧
      (∀ q, ValidPath (rest.length + 1) (q.map fun e => [e.1, e.2]) → ValidPath ops.length ((path ++ q).map fun e => [e.1, e.2])) := by
  induction T generalizing p rest ops with
  | leaf v =>
    refine ⟨[], ops, rfl, ho, fun q => by simp [inner], fun q hqv => ?_⟩
    have : ops.length = rest.length + 1 := by
      rw [ho.length_eq]
      simp [leaves]
    rw [this]
    exact hqv
  | node v l r ihl ihr =>
    have hv : v < 2 * g.n - 2 := hl v (by simp [labels])
    have hll : ∀ x ∈ l.labels, x < 2 * g.n - 2 := fun x hx => hl x (by simp [labels, hx])
    have hlr : ∀ x ∈ r.labels, x < 2 * g.n - 2 := fun x hx => hl x (by simp [labels, hx])
    have hn := h.sides_node hs hp hl
    have pl : g.parent l.top = v := hq.2.1.top
    have pr : g.parent r.top = v := hq.2.2.top
    change g.sd v p = _ at H
    change ∀ y ∈ rest, g.sd p v ⊆ g.ou y at K
    have lperm := labels_perm hs.2.2.1
    have rperm := labels_perm hs.2.2.2
    -- freshness
    have hd' := hd
    rw [labels, List.cons_append, List.nodup_cons, List.append_assoc, List.nodup_append', List.nodup_append'] at hd'
    obtain ⟨dv, dl, ⟨dr, drest, dd2⟩, dd1⟩ := hd'
    simp only [List.mem_append, not_or] at dv
    have leafsub : ∀ x ∈ r.leaves, x ∈ r.labels := fun x hx => rperm.1.symm.subset (List.mem_append_left _ hx)
    -- the left part
    obtain ⟨path1, ops1, a1, a2, a3, a4⟩ := ihl (p := v) (rest := r.leaves ++ rest) (ops := ops) hs.2.2.1 hq.2.1 hv hll
      (by rw [← List.append_assoc]; exact ho)
      (by
        rw [List.nodup_append', List.nodup_append']
        refine ⟨dl, ⟨(rperm.1.nodup_iff.1 dr).of_append_left, drest, fun x hx hx' => dd2 (leafsub x hx) hx'⟩, fun x hx hx' => ?_⟩
        refine dd1 hx ?_
        rw [List.mem_append] at hx' ⊢
        exact hx'.imp (leafsub x) id)
      (by
        rw [hn.2.1, H, List.toFinset_append, Finset.union_biUnion, h.sd_leaves hs.2.2.2 hq.2.2 hv hlr, Finset.union_comm])
      (by
        intro y hy
        rw [List.mem_append] at hy
        rcases hy with hy | hy
        · refine Finset.Subset.trans ?_ (h.outside hs.2.2.2 hq.2.2 hv hlr y hy)
          rw [hn.2.2.1]
          exact Finset.subset_union_right
        · refine Finset.Subset.trans ?_ (K y hy)
          rw [hn.1]
          exact Finset.subset_union_left)
    -- the right part
    have a2' : ops1.Perm (r.leaves ++ (l.top :: rest)) := a2.trans List.perm_middle.symm
    obtain ⟨path2, ops2, b1, b2, b3, b4⟩ := ihr (p := v) (rest := l.top :: rest) (ops := ops1) hs.2.2.2 hq.2.2 hv hlr a2'
      (by
        rw [List.perm_middle.nodup_iff, List.nodup_cons, List.nodup_append']
        exact ⟨fun hx => dd1 l.top_mem hx, dr, drest, dd2⟩)
      (by
        rw [hn.2.2.1, H, List.toFinset_cons, Finset.biUnion_insert, Finset.union_comm]
        unfold sb
        rw [pl])
      (by
        intro y hy
        rw [List.mem_cons] at hy
        rcases hy with rfl | hy
        · unfold ou
          rw [pl, hn.2.1]
          exact Finset.subset_union_right
        · refine Finset.Subset.trans ?_ (K y hy)
          rw [hn.1]
          exact Finset.subset_union_right)
    -- the last step
    have hnd2 : ops2.Nodup := by
      rw [b2.nodup_iff, List.nodup_cons, List.nodup_cons, List.mem_cons, not_or]
      exact ⟨⟨hn.2.2.2.2.2.2.symm, fun hx => dd2 r.top_mem hx⟩, fun hx => dd1 l.top_mem (List.mem_append_right _ hx), drest⟩
    have ml : l.top ∈ ops2 := b2.symm.subset (by simp)
    have mr : r.top ∈ ops2 := b2.symm.subset (by simp)
    have hlr' := hn.2.2.2.2.2.2
    have hee := erase_erase_eq ml mr hlr'
    have hperm3 : ((ops2.erase l.top).erase r.top).Perm rest := by
      have := (b2.erase l.top).erase r.top
      refine this.trans ?_
      rw [List.erase_cons_tail (by simpa using Ne.symm hlr'), List.erase_cons_head, List.erase_cons_head]
    have c1 : positions ops2 [(l.top, r.top, v)] = some ([(ops2.idxOf l.top, ops2.idxOf r.top)], (ops2.erase l.top).erase r.top ++ [v]) := by
      simp [positions, ml, mr]
    have hk := h.keep hs hq hp hl H K
    refine ⟨path1 ++ (path2 ++ [(ops2.idxOf l.top, ops2.idxOf r.top)]), (ops2.erase l.top).erase r.top ++ [v], ?_, ?_, ?_, ?_⟩
    · rw [steps, List.append_assoc, positions_append _ _ _ a1, positions_append _ _ _ b1, c1]
      rfl
    · refine List.perm_append_comm.trans ?_
      exact List.Perm.cons _ hperm3
    · intro q
      rw [List.append_assoc, a3, List.append_assoc, b3, List.singleton_append, pathCost]
      have g1 : (ops2.map g.red).getD (ops2.idxOf l.top) ∅ = g.red l.top := by
        rw [List.getD_eq_getElem?_getD, List.getElem?_map, List.getElem?_idxOf ml]
        rfl
      have g2 : (ops2.map g.red).getD (ops2.idxOf r.top) ∅ = g.red r.top := by
        rw [List.getD_eq_getElem?_getD, List.getElem?_map, List.getElem?_idxOf mr]
        rfl
      have g3 : (((ops2.map g.red).eraseIdx (max (ops2.idxOf l.top) (ops2.idxOf r.top))).eraseIdx (min (ops2.idxOf l.top) (ops2.idxOf r.top))) =
          ((ops2.erase l.top).erase r.top).map g.red := by
        rw [hee, List.eraseIdx_map, List.eraseIdx_map]
      have g4 : indexUnion (((ops2.erase l.top).erase r.top).map g.red) = indexUnion (rest.map g.red) := by
        ext e
        rw [mem_indexUnion, mem_indexUnion]
        have := hperm3.map g.red
        constructor
        · rintro ⟨s, hs1, hs2⟩; exact ⟨s, this.subset hs1, hs2⟩
        · rintro ⟨s, hs1, hs2⟩; exact ⟨s, this.symm.subset hs1, hs2⟩
      simp only [g1, g2, g3, g4, hk.1, hk.2]
      rw [inner, List.map_cons, List.map_append, List.sum_cons, List.sum_append, List.map_append, List.map_singleton]
      omega
    · intro q hqv
      rw [List.append_assoc]
      apply a4
      rw [show (r.leaves ++ rest).length + 1 = ops1.length by rw [a2.length_eq]; rfl, List.append_assoc]
      apply b4
      rw [List.length_cons, List.singleton_append, List.map_cons]
      have hlen : ops2.length = rest.length + 1 + 1 := by rw [b2.length_eq]; rfl
      refine ValidPath.two ?_ ?_ ?_ hqv
      · rw [← hlen]; exact List.idxOf_lt_length_of_mem ml
      · rw [← hlen]; exact List.idxOf_lt_length_of_mem mr
      · exact fun e => hlr' (List.idxOf_inj ml |>.1 e)

/-- `get_internal_path` gives the contractions of the part of the tree, in an order. -/
theorem Inv.internal_path {g : Uct} (h : g.Inv) {p : Nat} {T : UT} (hs : Shape g.n g.adj p T) (hq : Par g.parent p T)
    (hl : ∀ x ∈ T.labels, x < 2 * g.n - 2) {fuel : Nat} (hf : T.labels.length ≤ fuel) :
    ∃ T' : UT, T'.top = T.top ∧ Shape g.n g.adj p T' ∧ Par g.parent p T' ∧ T'.labels.Perm T.labels ∧
      g.internalPath fuel T.top = some T'.steps := by
  induction T generalizing p fuel with
  | leaf v =>
    obtain ⟨f, rfl⟩ : ∃ f, fuel = f + 1 := ⟨fuel - 1, by simp [labels] at hf; omega⟩
    refine ⟨.leaf v, rfl, hs, hq, List.Perm.refl _, ?_⟩
    show g.internalPath (f + 1) v = _
    rw [internalPath, if_pos hs.1]
    rfl
  | node v l r ihl ihr =>
    have hfl : l.labels.length + r.labels.length + 1 ≤ fuel := by
      rw [labels, List.length_cons, List.length_append] at hf
      exact hf
    obtain ⟨f, rfl⟩ : ∃ f, fuel = f + 1 := ⟨fuel - 1, by omega⟩
    obtain ⟨l', l1, l2, l3, l4, l5⟩ := ihl (p := v) (fuel := f) hs.2.2.1 hq.2.1 (fun x hx => hl x (by simp [labels, hx])) (by omega)
    obtain ⟨r', r1, r2, r3, r4, r5⟩ := ihr (p := v) (fuel := f) hs.2.2.2 hq.2.2 (fun x hx => hl x (by simp [labels, hx])) (by omega)
    have hv : v < 2 * g.n - 2 := hl v (by simp [labels])
    have hn := h.nbrs hv
    rw [if_neg (Nat.not_lt.2 hs.1)] at hn
    have pv : g.parent v = p := hq.1
    obtain ⟨a, b, e1, -, e2, e3⟩ := filter_two hn.1 hn.2.1 (h.parents.mem v hv)
    have hperm : [a, b].Perm [l.top, r.top] := by
      rw [pv] at e3
      exact (List.perm_cons p).1 (e3.symm.trans hs.2.1)
    have hcase : (a = l.top ∧ b = r.top) ∨ (a = r.top ∧ b = l.top) := by
      have ha := hperm.subset (List.mem_cons_self (a := a) (l := [b]))
      have hb := hperm.subset (show b ∈ [a, b] by simp)
      have hl' := hperm.symm.subset (show l.top ∈ [l.top, r.top] by simp)
      have hr' := hperm.symm.subset (show r.top ∈ [l.top, r.top] by simp)
      simp only [List.mem_cons, List.not_mem_nil, or_false] at ha hb hl' hr'
      rcases ha with rfl | rfl
      · rcases hb with hb | rfl
        · exact absurd hb.symm e2
        · exact Or.inl ⟨rfl, rfl⟩
      · rcases hb with rfl | hb
        · exact Or.inr ⟨rfl, rfl⟩
        · exact absurd hb.symm e2
    have hpath : ∀ pa pb, g.internalPath f a = some pa → g.internalPath f b = some pb →
        g.internalPath (f + 1) v = some (pa ++ pb ++ [(a, b, v)]) := by
      intro pa pb ha hb
      rw [internalPath, if_neg (Nat.not_lt.2 hs.1)]
      simp only [e1, ha, hb]
    show ∃ T' : UT, T'.top = v ∧ _ ∧ _ ∧ _ ∧ g.internalPath (f + 1) v = _
    rcases hcase with ⟨rfl, rfl⟩ | ⟨rfl, rfl⟩
    · refine ⟨.node v l' r', rfl, ⟨hs.1, ?_, l2, r2⟩, ⟨pv, l3, r3⟩, ?_, ?_⟩
      · rw [l1, r1]; exact hs.2.1
      · rw [labels, labels]; exact List.Perm.cons _ (l4.append r4)
      · rw [hpath _ _ l5 r5]
        simp only [steps, l1, r1]
    · refine ⟨.node v r' l', rfl, ⟨hs.1, ?_, r2, l2⟩, ⟨pv, r3, l3⟩, ?_, ?_⟩
      · rw [l1, r1]; exact hs.2.1.trans (List.Perm.cons _ (List.Perm.swap _ _ _))
      · rw [labels, labels]; exact List.Perm.cons _ ((r4.append l4).trans List.perm_append_comm)
      · rw [hpath _ _ r5 l5]
        simp only [steps, l1, r1]

/-- On the sides of the root the parents lead to the root. -/
theorem Parents.par {g : Uct} (hp : g.Parents) {p : Nat} {T : UT} (hs : Shape g.n g.adj p T) (hl : ∀ x ∈ T.labels, x < 2 * g.n - 2)
    (hr : ¬ (g.root.1 ∈ T.labels ∧ g.root.2 ∈ T.labels)) : Par g.parent p T := by
  have top : ∀ {p : Nat} {T : UT}, Shape g.n g.adj p T → (∀ x ∈ T.labels, x < 2 * g.n - 2) →
      ¬ (g.root.1 ∈ T.labels ∧ g.root.2 ∈ T.labels) → g.parent T.top = p := by
    intro p T hs hl hr
    by_contra hc
    obtain ⟨x, a1, a2, a3⟩ := UT.mutual hs (fun x hx => hp.mem x (hl x hx)) hc
    apply hr
    rcases hp.uniq x (hl x a1) a3 with e | e <;> rw [e]
    · exact ⟨a1, a2⟩
    · exact ⟨a2, a1⟩
  induction T generalizing p with
  | leaf v => exact top hs hl hr
  | node v l r ihl ihr =>
    refine ⟨top hs hl hr, ihl hs.2.2.1 (fun x hx => hl x (by simp [labels, hx])) ?_, ihr hs.2.2.2 (fun x hx => hl x (by simp [labels, hx])) ?_⟩
    · rintro ⟨h1, h2⟩
      exact hr ⟨by simp [labels, h1], by simp [labels, h2]⟩
    · rintro ⟨h1, h2⟩
      exact hr ⟨by simp [labels, h1], by simp [labels, h2]⟩

theorem cut_leaves {n : Nat} {adj : Nat → List Nat} {u v : Nat} {Tu Tv : UT} (hn : 2 ≤ n) (h : Cut n adj u v Tu Tv) :
    (Tu.leaves ++ Tv.leaves).Perm (List.range n) ∧ (Tu.inner ++ Tv.inner).Nodup ∧
    (Tu.inner ++ Tv.inner).toFinset = Finset.Ico n (2 * n - 2) := by
  obtain ⟨u1, u2, u3⟩ := labels_perm h.su
  obtain ⟨v1, v2, v3⟩ := labels_perm h.sv
  have hp : ((Tu.leaves ++ Tv.leaves) ++ (Tu.inner ++ Tv.inner)).Perm (List.range (2 * n - 2)) := by
    refine List.Perm.trans ?_ h.perm
    refine List.Perm.trans ?_ (u1.append v1).symm
    rw [List.append_assoc, List.append_assoc]
    refine List.Perm.append_left _ ?_
    rw [← List.append_assoc, ← List.append_assoc]
    exact List.perm_append_comm.append_right _
  have hnd := hp.nodup_iff.2 List.nodup_range
  rw [List.nodup_append'] at hnd
  have lf : ∀ x ∈ Tu.leaves ++ Tv.leaves, x < n := by
    intro x hx
    rcases List.mem_append.1 hx with hx | hx
    · exact u2 x hx
    · exact v2 x hx
  have inn : ∀ x ∈ Tu.inner ++ Tv.inner, n ≤ x := by
    intro x hx
    rcases List.mem_append.1 hx with hx | hx
    · exact u3 x hx
    · exact v3 x hx
  refine ⟨(List.perm_ext_iff_of_nodup hnd.1 List.nodup_range).2 fun x => ?_, hnd.2.1, ?_⟩
  · rw [List.mem_range]
    refine ⟨lf x, fun hx => ?_⟩
    have := hp.symm.subset (List.mem_range.2 (show x < 2 * n - 2 by omega))
    rcases List.mem_append.1 this with h1 | h1
    · exact h1
    · have := inn x h1; omega
  · ext x
    rw [List.mem_toFinset, Finset.mem_Ico]
    refine ⟨fun hx => ⟨inn x hx, List.mem_range.1 (hp.subset (List.mem_append_right _ hx))⟩, fun hx => ?_⟩
    have := hp.symm.subset (List.mem_range.2 hx.2)
    rcases List.mem_append.1 this with h1 | h1
    · have := lf x h1; omega
    · exact h1

/-- `get_path`: a valid path of pairs, and its cost. -/
theorem Inv.path {g : Uct} (h : g.Inv) :
    ∃ path, g.getPath = some path ∧ ValidPath g.n (path.map fun e => [e.1, e.2]) ∧
      (g.opn ⊆ (Finset.range g.n).biUnion g.sub → g.cost = pathCost g.opn ((List.range g.n).map g.sub) path) := by
  obtain ⟨Tu0, Tv0, hc0⟩ := h.tree
  -- the parts of the tree, in the order in which they are read
  have hlu : ∀ x ∈ Tu0.labels, x < 2 * g.n - 2 := fun x hx => hc0.mem.2 (Or.inl hx)
  have hlv : ∀ x ∈ Tv0.labels, x < 2 * g.n - 2 := fun x hx => hc0.mem.2 (Or.inr hx)
  have hd0 := List.disjoint_of_nodup_append hc0.nodup
  have mu : g.root.1 ∈ Tu0.labels := by
    have := Tu0.top_mem
    rwa [hc0.tu] at this
  have mv : g.root.2 ∈ Tv0.labels := by
    have := Tv0.top_mem
    rwa [hc0.tv] at this
  have pu := h.parents.par hc0.su hlu (fun e => hd0 e.2 mv)
  have pv := h.parents.par hc0.sv hlv (fun e => hd0 mu e.1)
  have hlen := hc0.perm.length_eq
  rw [List.length_append, List.length_range] at hlen
  obtain ⟨Tu, u1, u2, u3, u4, u5⟩ := h.internal_path hc0.su pu hlu (fuel := 2 * g.n) (by omega)
  obtain ⟨Tv, v1, v2, v3, v4, v5⟩ := h.internal_path hc0.sv pv hlv (fuel := 2 * g.n) (by omega)
  have hc : Cut g.n g.adj g.root.1 g.root.2 Tu Tv :=
    ⟨u1.trans hc0.tu, v1.trans hc0.tv, u2, v2, (u4.append v4).trans hc0.perm⟩
  rw [hc0.tu] at u5
  rw [hc0.tv] at v5
  have hadj := hc.adjacent
  have hlu' : ∀ x ∈ Tu.labels, x < 2 * g.n - 2 := fun x hx => hc.mem.2 (Or.inl hx)
  have hlv' : ∀ x ∈ Tv.labels, x < 2 * g.n - 2 := fun x hx => hc.mem.2 (Or.inr hx)
  obtain ⟨q1, q2, q3⟩ := cut_leaves h.two hc
  have hnd := hc.nodup
  have vperm := labels_perm v2
  have leafsub : ∀ x ∈ Tv.leaves, x ∈ Tv.labels := fun x hx => vperm.1.symm.subset (List.mem_append_left _ hx)
  have hnd' := hnd
  rw [List.nodup_append'] at hnd'
  have p1 : g.parent g.root.1 = g.root.2 := h.parents.root.1
  have p2 : g.parent g.root.2 = g.root.1 := h.parents.root.2
  -- the first half
  obtain ⟨path1, ops1, a1, a2, a3, a4⟩ := h.run u2 u3 hadj.2.2.2.1 hlu' (rest := Tv.leaves) (ops := List.range g.n) q1.symm
    (by
      rw [List.nodup_append']
      exact ⟨hnd'.1, (vperm.1.nodup_iff.1 hnd'.2.1).of_append_left, fun x hx hx' => hnd'.2.2 hx (leafsub x hx')⟩)
    (by
      have := h.sd_leaves v2 v3 hadj.2.2.1 hlv'
      rw [hc.tv] at this
      rw [hc.tu, this])
    (by
      intro y hy
      have := h.outside v2 v3 hadj.2.2.1 hlv' y hy
      rw [hc.tv] at this
      rw [hc.tu]
      exact this)
  rw [hc.tu] at a2
  -- the second half
  obtain ⟨path2, ops2, b1, b2, b3, b4⟩ := h.run v2 v3 hadj.2.2.1 hlv' (rest := [g.root.1]) (ops := ops1)
    (a2.trans (List.perm_append_comm (l₁ := [g.root.1])))
    (by
      rw [List.nodup_append']
      refine ⟨hnd'.2.1, by simp, fun x hx hx' => ?_⟩
      rw [List.mem_singleton] at hx'
      subst hx'
      exact hnd'.2.2 (by have := Tu.top_mem; rwa [hc.tu] at this) hx)
    (by
      rw [hc.tv]
      simp only [List.toFinset_cons, List.toFinset_nil, insert_empty_eq, Finset.singleton_biUnion]
      unfold sb
      rw [p1])
    (by
      intro y hy
      rw [List.mem_singleton] at hy
      subst hy
      rw [hc.tv]
      unfold ou
      rw [p1])
  rw [hc.tv] at b2
  refine ⟨path1 ++ path2 ++ [(0, 1)], ?_, ?_, ?_⟩
  · unfold getPath
    rw [u5, v5]
    simp only
    rw [positions_append _ _ _ a1, b1]
    simp
  · have e := a4 (path2 ++ [(0, 1)]) (by
      have := b4 [(0, 1)] (by
        refine ValidPath.two (by simp) (by simp) (by simp) ?_
        exact ValidPath.done)
      have hl1 : ops1.length = Tv.leaves.length + 1 := by rw [a2.length_eq]; rfl
      rwa [hl1] at this)
    rw [List.length_range, ← List.append_assoc] at e
    exact e
  · intro hop
    have hsub : (List.range g.n).map g.sub = (List.range g.n).map g.red := by
      apply List.map_congr_left
      intro x hx
      rw [List.mem_range] at hx
      have hx2 : x < 2 * g.n - 2 := by have := h.two; omega
      rw [red_eq, if_pos hx]
      unfold sb
      have hm := h.parents.mem x hx2
      have hm' := (h.nbrs hx2).2.2 _ hm
      rw [h.sides.leaf _ x hm'.2.1 hm'.1 hx]
    rw [hsub, List.append_assoc, a3, b3]
    -- the last contraction
    have hfin : pathCost g.opn (ops2.map g.red) [(0, 1)] = g.rcost := by
      have hl2 : ops2.length = 2 := by rw [b2.length_eq]; rfl
      obtain ⟨x, y, hxy⟩ : ∃ x y, ops2 = [x, y] := by
        match ops2, hl2 with
        | [x, y], _ => exact ⟨x, y, rfl⟩
      have hcov : g.opn ⊆ g.red g.root.2 ∪ g.red g.root.1 := by
        intro e he
        have h1 := hop he
        rw [Finset.mem_biUnion] at h1
        obtain ⟨z, hz, hez⟩ := h1
        rw [Finset.mem_range] at hz
        have hz2 : z < 2 * g.n - 2 := by have := h.two; omega
        have hm := h.parents.mem z hz2
        have hm' := (h.nbrs hz2).2.2 _ hm
        have hsz : g.sb z = g.sub z := by
          unfold sb
          rw [h.sides.leaf _ z hm'.2.1 hm'.1 hz]
        have hzl := q1.symm.subset (List.mem_range.2 hz)
        rw [Finset.mem_union]
        rcases List.mem_append.1 hzl with h2 | h2
        · right
          refine mem_red ?_ (Finset.mem_union_right _ he)
          have := h.sd_leaves u2 u3 hadj.2.2.2.1 hlu'
          rw [hc.tu] at this
          unfold sb
          rw [p1, this, Finset.mem_biUnion]
          exact ⟨z, List.mem_toFinset.2 h2, by rw [hsz]; exact hez⟩
        · left
          refine mem_red ?_ (Finset.mem_union_right _ he)
          have := h.sd_leaves v2 v3 hadj.2.2.1 hlv'
          rw [hc.tv] at this
          unfold sb
          rw [p2, this, Finset.mem_biUnion]
          exact ⟨z, List.mem_toFinset.2 h2, by rw [hsz]; exact hez⟩
      have hr : g.rcost = contractionCost (g.red g.root.2) (g.red g.root.1) g.opn := by
        rw [← stepCost_eq hcov]
        unfold rcost red
        rw [p1, p2]
      have hset : g.red x ∪ g.red y = g.red g.root.2 ∪ g.red g.root.1 := by
        rw [hxy] at b2
        have hx := b2.subset (show x ∈ [x, y] by simp)
        have hy := b2.subset (show y ∈ [x, y] by simp)
        have h1 := b2.symm.subset (show g.root.1 ∈ [g.root.2, g.root.1] by simp)
        have h2 := b2.symm.subset (show g.root.2 ∈ [g.root.2, g.root.1] by simp)
        simp only [List.mem_cons, List.not_mem_nil, or_false] at hx hy h1 h2
        have hne := hadj.2.2.2.2
        rcases hx with rfl | rfl
        · rcases h1 with h1 | rfl
          · exact absurd h1 hne
          · rfl
        · rcases h2 with h2 | rfl
          · exact absurd h2.symm hne
          · exact Finset.union_comm _ _
      rw [hr, hxy]
      simp only [pathCost, List.map_cons, List.map_nil, List.getD_cons_zero, List.getD_cons_succ, Nat.zero_le, Nat.max_eq_right,
        Nat.min_eq_left, List.eraseIdx_cons_succ, List.eraseIdx_cons_zero, Nat.add_zero]
      have hi : indexUnion ([] : List (Finset Nat)) = ∅ := rfl
      rw [hi, Finset.empty_union, hset, Finset.inter_eq_right.2 hcov]
      unfold contractionCost
      rw [hset]
    rw [hfin]
    -- the sum over all contractions
    have ht := h.total
    unfold Total at ht
    rw [ht, h.root, ← q3]
    have hsum : ∑ x ∈ (Tu.inner ++ Tv.inner).toFinset, (((g.ncost x).getD 0 : Nat) : Int) =
        (((Tu.inner ++ Tv.inner).map g.vcost).sum : Nat) := by
      rw [← List.sum_toFinset _ q2, Nat.cast_sum]
      apply Finset.sum_congr rfl
      intro x hx
      rw [q3, Finset.mem_Ico] at hx
      rw [h.node x hx.1 hx.2, Option.getD_some]
    rw [hsum, List.map_append, List.sum_append]
    push_cast
    omega

end Uct

end Verif
