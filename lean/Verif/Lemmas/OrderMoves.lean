import Verif.Lemmas.Orders
import Mathlib.Data.Multiset.Basic
import Mathlib.Data.List.FinRange
/-!
# Lemmas: flattening, contraction trees, reorganising
-/

namespace Verif

/-! ## Flattening -/

theorem producer_spec {pre : List OrderStep} {l : Nm} {i : Nat} {xs : List Nm} (h : producer pre l = some (i, xs)) :
    ∃ p1 p2, pre = p1 ++ (xs, l) :: p2 ∧ pre.eraseIdx i = p1 ++ p2 := by
  unfold producer at h
  obtain ⟨⟨s, j⟩, h1, h2⟩ := Option.map_eq_some_iff.1 h
  rw [Prod.mk.injEq] at h2
  obtain ⟨rfl, rfl⟩ := h2
  have h3 := List.find?_some h1
  have h4 := List.mem_of_find?_eq_some h1
  rw [List.mem_reverse, List.mem_zipIdx_iff_getElem?] at h4
  obtain ⟨s1, s2⟩ := s
  dsimp only at h3 h4 ⊢
  have h3 : s2 = l := of_decide_eq_true h3
  subst h3
  obtain ⟨h5, h6⟩ := List.getElem?_eq_some_iff.1 h4
  refine ⟨pre.take j, pre.drop (j + 1), ?_, List.eraseIdx_eq_take_drop_succ _ _⟩
  rw [← h6, List.getElem_cons_drop, List.take_append_drop]

theorem pickOperand_spec {size offset : Nat} {sz : Nm → Nat} {pre : List OrderStep} {len : Nat} {ls : List Nm} {c c' : Nat}
    {l : Nm} {i : Nat} {xs : List Nm} (h : pickOperand size offset sz pre len ls c = (some (l, i, xs), c')) :
    l ∈ ls ∧ producer pre l = some (i, xs) ∧ xs.length + len ≤ size := by
  induction ls generalizing c with
  | nil => simp [pickOperand] at h
  | cons a ls ih =>
    rw [pickOperand] at h
    split at h
    · obtain ⟨h1, h2⟩ := ih h
      exact ⟨List.mem_cons_of_mem _ h1, h2⟩
    · rename_i j ys hp
      split at h
      · obtain ⟨h1, h2⟩ := ih h
        exact ⟨List.mem_cons_of_mem _ h1, h2⟩
      · rename_i hn
        split at h
        · obtain ⟨h1, h2⟩ := ih h
          exact ⟨List.mem_cons_of_mem _ h1, h2⟩
        · rw [Prod.mk.injEq, Option.some.injEq, Prod.mk.injEq, Prod.mk.injEq] at h
          obtain ⟨⟨rfl, rfl, rfl⟩, _⟩ := h
          exact ⟨List.mem_cons_self, hp, by omega⟩

theorem mem_largestList {sz : Nm → Nat} {ops : List Nm} {l : Nm} (h : l ∈ largestList sz ops) : l ∈ ops := by
  unfold largestList at h
  rw [List.mem_reverse, List.mem_insertionSort, List.mem_eraseDups] at h
  exact h

/-- What flattening guarantees of an order. -/
structure Flat (size : Nat) (ns : List Nm) (last : Nm) (o o' : List OrderStep) : Prop where
  valid : ValidOrder ns o' last
  single : SingleAssignment ns o'
  names : (o'.map (·.2)).Sublist (o.map (·.2))
  bound : (∀ s ∈ o, s.1.length ≤ size) → ∀ s ∈ o', s.1.length ≤ size
  lower : (∀ s ∈ o, 2 ≤ s.1.length) → ∀ s ∈ o', 2 ≤ s.1.length

theorem Flat.refl {size : Nat} {ns : List Nm} {last : Nm} {o : List OrderStep} (h : ValidOrder ns o last) (hs : SingleAssignment ns o) :
    Flat size ns last o o := ⟨h, hs, List.Sublist.refl _, fun h => h, fun h => h⟩

theorem Flat.trans {size : Nat} {ns : List Nm} {last : Nm} {o o' o'' : List OrderStep} (h : Flat size ns last o o')
    (h' : Flat size ns last o' o'') : Flat size ns last o o'' :=
  ⟨h'.valid, h'.single, h'.names.trans h.names, fun hb => h'.bound (h.bound hb), fun hb => h'.lower (h.lower hb)⟩

theorem SingleAssignment.sublist {ns : List Nm} {o o' : List OrderStep} (h : SingleAssignment ns o)
    (hs : (o'.map (·.2)).Sublist (o.map (·.2))) : SingleAssignment ns o' :=
  List.Nodup.sublist (List.Sublist.append_left hs ns) h

theorem flat_inline {size : Nat} {ns : List Nm} {last : Nm} {p1 p2 post : List OrderStep} {xs ys : List Nm} {l z : Nm}
    (hl : l ∈ ys) (hsz : xs.length + ys.length ≤ size)
    (h : ValidOrder ns (p1 ++ (xs, l) :: p2 ++ (ys, z) :: post) last)
    (hs : SingleAssignment ns (p1 ++ (xs, l) :: p2 ++ (ys, z) :: post)) :
    Flat size ns last (p1 ++ (xs, l) :: p2 ++ (ys, z) :: post) (p1 ++ p2 ++ (ys.erase l ++ xs, z) :: post) := by
  have hsub : ((p1 ++ p2 ++ (ys.erase l ++ xs, z) :: post).map (·.2)).Sublist
      ((p1 ++ (xs, l) :: p2 ++ (ys, z) :: post).map (·.2)) := by
    simp only [List.map_append, List.map_cons, List.append_assoc, List.cons_append]
    exact List.Sublist.append_left (List.sublist_cons_self _ _) _
  refine ⟨validOrder_iff.2 (Runs.inline hl (validOrder_iff.1 h) hs), hs.sublist hsub, hsub, fun hb s hm => ?_,
    fun hb s hm => ?_⟩
  · rw [List.mem_append, List.mem_append, List.mem_cons] at hm
    rcases hm with (hm | hm) | rfl | hm
    · exact hb s (by simp [hm])
    · exact hb s (by simp [hm])
    · have := List.length_erase_of_mem hl
      have hpos := List.length_pos_of_mem hl
      simp only [List.length_append]
      omega
    · exact hb s (by simp [hm])
  · rw [List.mem_append, List.mem_append, List.mem_cons] at hm
    rcases hm with (hm | hm) | rfl | hm
    · exact hb s (by simp [hm])
    · exact hb s (by simp [hm])
    · have := List.length_erase_of_mem hl
      have h1 := hb (xs, l) (by simp)
      have h2 := hb (ys, z) (by simp)
      simp only [List.length_append] at *
      omega
    · exact hb s (by simp [hm])

theorem flattenLoop_spec (size offset : Nat) (sz : Nm → Nat) {ns : List Nm} {last : Nm} (fuel : Nat) :
    ∀ (pre : List OrderStep) (o : OrderStep) (post : List OrderStep) (c : Nat), ValidOrder ns (pre ++ o :: post) last →
      SingleAssignment ns (pre ++ o :: post) →
      Flat size ns last (pre ++ o :: post) (flattenLoop size offset sz fuel pre o post c) := by
  induction fuel with
  | zero => intro pre o post c h hs; exact Flat.refl h hs
  | succ fuel ih =>
    intro pre o post c h hs
    have hback : ∀ c, Flat size ns last (pre ++ o :: post) (match pre.getLast? with
        | none => pre ++ o :: post
        | some p => flattenLoop size offset sz fuel pre.dropLast p (o :: post) c) := by
      intro c
      cases hp : pre.getLast? with
      | none => exact Flat.refl h hs
      | some p =>
        have e : pre = pre.dropLast ++ [p] := (List.dropLast_append_getLast? p hp).symm
        have e' : pre ++ o :: post = pre.dropLast ++ p :: o :: post := by
          conv_lhs => rw [e]
          rw [List.append_assoc]
          rfl
        rw [e'] at h hs ⊢
        exact ih _ _ _ _ h hs
    rw [flattenLoop]
    by_cases hpre : pre = []
    · rw [if_pos hpre]; exact Flat.refl h hs
    · rw [if_neg hpre]
      dsimp only
      by_cases hsz : o.1.length ≥ size
      · rw [if_pos hsz]; exact hback c
      · rw [if_neg hsz]
        cases hpick : pickOperand size offset sz pre o.1.length (largestList sz o.1) c with
        | mk r c' =>
          cases r with
          | none => exact hback c'
          | some t =>
            obtain ⟨l, i, xs⟩ := t
            dsimp only
            obtain ⟨h1, h2, h3⟩ := pickOperand_spec hpick
            obtain ⟨p1, p2, h4, h5⟩ := producer_spec h2
            obtain ⟨ys, z⟩ := o
            rw [h5]
            subst h4
            have hf := flat_inline (size := size) (mem_largestList h1) h3 h hs
            exact hf.trans (ih _ _ _ _ hf.valid hf.single)

theorem flattenOrder_spec (size offset : Nat) (sz : Nm → Nat) {ns : List Nm} {last : Nm} {order : List OrderStep}
    (h : ValidOrder ns order last) (hs : SingleAssignment ns order) :
    Flat size ns last order (flattenOrder size offset sz order) := by
  unfold flattenOrder
  cases hl : order.getLast? with
  | none => exact Flat.refl h hs
  | some o =>
    have e : order = order.dropLast ++ [o] := (List.dropLast_append_getLast? o hl).symm
    dsimp only
    have := flattenLoop_spec size offset sz order.length order.dropLast o [] 0 (ns := ns) (last := last) (by rwa [← e]) (by rwa [← e])
    rwa [← e] at this

/-! ## Reorganising -/

theorem foldl_erase_perm {xs live rest : List Nm} (h : live.Perm (xs ++ rest)) :
    (xs.foldl (fun s a => s.erase a) live).Perm rest := by
  induction xs generalizing live with
  | nil => exact h
  | cons x xs ih =>
    rw [List.foldl_cons]
    refine ih ?_
    have := h.erase x
    rwa [List.cons_append, List.erase_cons_head] at this

theorem find?_erase {o : OrderStep} {order : List OrderStep} {p : OrderStep → Bool} (h : order.find? p = some o) :
    p o = true ∧ ∃ p1 p2, order = p1 ++ o :: p2 ∧ order.erase o = p1 ++ p2 := by
  obtain ⟨h1, p1, p2, h2, h3⟩ := List.find?_eq_some_iff_append.1 h
  refine ⟨h1, p1, p2, h2, ?_⟩
  have hn : o ∉ p1 := fun hm => by
    have := h3 o hm
    rw [h1] at this
    exact absurd this (by simp)
  rw [h2, List.erase_append_right _ hn, List.erase_cons_head]

theorem reorgLoop_spec (thres : Nat) (sz : Nm → Nat) {last : Nm} (fuel : Nat) :
    ∀ (live : List Nm) (init order : List OrderStep), ValidOrder live order last → SingleAssignment live order →
      ∃ moved, (reorgLoop thres sz fuel live init order).1 = init ++ moved ∧
        ValidOrder live (moved ++ (reorgLoop thres sz fuel live init order).2) last ∧
        (moved ++ (reorgLoop thres sz fuel live init order).2).Perm order ∧ (∀ s ∈ moved, sz s.2 < thres) ∧
        (order.length ≤ fuel → ∃ live', Runs live moved live' ∧ ∀ s ∈ (reorgLoop thres sz fuel live init order).2,
          sz s.2 < thres → ∃ x ∈ s.1, x ∉ live') := by
  induction fuel with
  | zero =>
    intro live init order h _
    refine ⟨[], by simp [reorgLoop], by simpa [reorgLoop] using h, by simp [reorgLoop], by simp, fun hl => ?_⟩
    have : order = [] := List.length_eq_zero_iff.1 (by omega)
    subst this
    exact ⟨live, .nil (List.Perm.refl _), by simp [reorgLoop]⟩
  | succ fuel ih =>
    intro live init order h hs
    rw [reorgLoop]
    cases hf : order.find? fun o => decide (sz o.2 < thres) && o.1.all fun a => live.contains a with
    | none =>
      dsimp only
      refine ⟨[], by simp, by simpa using h, by simp, by simp, fun _ => ⟨live, .nil (List.Perm.refl _), fun s hm hsz => ?_⟩⟩
      have := List.find?_eq_none.1 hf s hm
      by_contra hc
      push Not at hc
      apply this
      simp only [Bool.and_eq_true, decide_eq_true_eq, List.all_eq_true, List.contains_iff_mem]
      exact ⟨hsz, hc⟩
    | some o =>
      obtain ⟨xs, z⟩ := o
      dsimp only
      obtain ⟨h1, p1, p2, h2, h3⟩ := find?_erase hf
      simp only [Bool.and_eq_true, decide_eq_true_eq, List.all_eq_true, List.contains_iff_mem] at h1
      rw [h3]
      subst h2
      have hr := Runs.pull (validOrder_iff.1 h) hs h1.2
      have hperm : ((xs, z) :: (p1 ++ p2)).Perm (p1 ++ (xs, z) :: p2) := List.perm_middle.symm
      have hs2 : SingleAssignment live ((xs, z) :: (p1 ++ p2)) :=
        hs.of_perm (List.Perm.refl _) (hperm.symm.map _)
      cases hr with
      | @cons _ _ rest _ _ _ g1 g2 g3 g4 =>
        have hlive : (z :: xs.foldl (fun s a => s.erase a) live).Perm (z :: rest) := (foldl_erase_perm g1).cons z
        obtain ⟨moved, e1, e2, e3, e4, e5⟩ := ih (z :: xs.foldl (fun s a => s.erase a) live) (init ++ [(xs, z)]) (p1 ++ p2)
          (validOrder_iff.2 (g4.permL hlive.symm)) ((hs2.tail g1).of_perm hlive.symm (List.Perm.refl _))
        refine ⟨(xs, z) :: moved, by rw [e1]; simp, ?_, ?_, ?_, ?_⟩
        · rw [validOrder_iff] at e2 ⊢
          exact .cons g1 g2 g3 (e2.permL hlive)
        · rw [List.cons_append]
          exact (e3.cons _).trans hperm
        · intro s hm
          rcases List.mem_cons.1 hm with rfl | hm
          · exact h1.1
          · exact e4 s hm
        · intro hl
          obtain ⟨live', h6, h7⟩ := e5 (by
            have := hperm.length_eq
            rw [List.length_cons] at this
            omega)
          exact ⟨live', .cons g1 g2 g3 (h6.permL hlive), h7⟩

/-! ## Contraction trees -/

namespace CTree

/-- The initial tensors of a tree. -/
def leaves : CTree → List Nm
  | leaf n => [n]
  | one _ c => c.leaves
  | two _ a b => a.leaves ++ b.leaves

/-- All names of a tree. -/
def names : CTree → List Nm
  | leaf n => [n]
  | one n c => n :: c.names
  | two n a b => n :: (a.names ++ b.names)

theorem names_perm (t : CTree) : t.names.Perm (t.leaves ++ t.fullOrder.map (·.2)) := by
  induction t with
  | leaf n => exact List.Perm.refl _
  | one n c ih =>
    rw [names, leaves, fullOrder, List.map_append, ← List.append_assoc]
    exact (ih.cons n).trans (List.perm_append_singleton _ _).symm
  | two n a b iha ihb =>
    rw [names, leaves, fullOrder, List.map_append, ← List.append_assoc]
    refine List.Perm.trans (List.Perm.cons n ?_) (List.perm_append_singleton _ _).symm
    rw [List.map_append]
    refine (iha.append ihb).trans ?_
    generalize a.leaves = A
    generalize b.leaves = B
    generalize a.fullOrder.map (·.2) = C
    generalize b.fullOrder.map (·.2) = D
    rw [List.append_assoc, List.append_assoc]
    refine List.Perm.append_left A ?_
    rw [← List.append_assoc B]
    exact List.perm_append_comm

theorem name_mem (t : CTree) : t.name ∈ t.names := by
  cases t <;> simp [name, names]

theorem runs (t : CTree) : ∀ (rest : List Nm), t.names.Nodup → (∀ x ∈ rest, x ∉ t.names) →
    Runs (t.leaves ++ rest) t.fullOrder (t.name :: rest) := by
  induction t with
  | leaf n => intro rest _ _; exact .nil (List.Perm.refl _)
  | one n c ih =>
    intro rest hn hr
    rw [names, List.nodup_cons] at hn
    refine (ih rest hn.2 fun x hx hc => hr x hx (List.mem_cons_of_mem _ hc)).append ?_
    exact .cons (xs := [c.name]) (rest := rest) (List.Perm.refl _) (by simp)
      (fun hc => hr n hc (by simp [names])) (.nil (List.Perm.refl _))
  | two n a b iha ihb =>
    intro rest hn hr
    rw [names, List.nodup_cons, List.nodup_append'] at hn
    have hr' : ∀ x ∈ rest, x ∉ a.names ∧ x ∉ b.names := fun x hx =>
      ⟨fun hc => hr x hx (by simp [names, hc]), fun hc => hr x hx (by simp [names, hc])⟩
    have hla : ∀ x ∈ a.leaves, x ∈ a.names := fun x hx => a.names_perm.symm.subset (List.mem_append_left _ hx)
    have h1 := ihb (a.leaves ++ rest) hn.2.2.1 (fun x hx => by
      rcases List.mem_append.1 hx with hx | hx
      · exact fun hc => hn.2.2.2 (hla x hx) hc
      · exact (hr' x hx).2)
    have h2 := iha (b.name :: rest) hn.2.1 (fun x hx => by
      rcases List.mem_cons.1 hx with rfl | hx
      · exact fun hc => hn.2.2.2 hc b.name_mem
      · exact (hr' x hx).1)
    have h3 : Runs (a.name :: b.name :: rest) [([a.name, b.name], n)] (n :: rest) :=
      .cons (xs := [a.name, b.name]) (rest := rest) (List.Perm.refl _) (by simp) (fun hc => hr n hc (by simp [names]))
        (.nil (List.Perm.refl _))
    rw [fullOrder, leaves]
    refine Runs.append (Runs.append (h1.permL ?_) (h2.permL List.perm_middle)) h3
    rw [← List.append_assoc]
    exact List.perm_append_comm.append_right rest

end CTree

open CTree

/-- The tree filed under a name. -/
def treeOf (d : Dict Nm CTree) (x : Nm) : CTree := (d.get? x).getD (.leaf x)

theorem mk2_spec (len : Nm → Nat) (n : Nm) (a b : CTree) :
    (mk2 len n a b).name = n ∧ (mk2 len n a b).leaves.Perm (a.leaves ++ b.leaves) ∧
    ((mk2 len n a b).fullOrder.map unordered).Perm (a.fullOrder.map unordered ++ b.fullOrder.map unordered ++ [unordered ([a.name, b.name], n)]) := by
  unfold mk2
  split
  · refine ⟨rfl, List.Perm.refl _, ?_⟩
    rw [fullOrder, List.map_append, List.map_append]
    exact List.Perm.append_right _ List.perm_append_comm
  · refine ⟨rfl, List.perm_append_comm, ?_⟩
    rw [fullOrder, List.map_append, List.map_append]
    refine List.Perm.append_left _ ?_
    rw [List.map_singleton]
    refine List.Perm.of_eq ?_
    unfold unordered
    rw [Multiset.coe_eq_coe.2 (List.Perm.swap a.name b.name [])]

/-- The state of `from_order` after some steps: the current tensors have trees whose leaves are the initial tensors
and whose steps are the steps done. -/
structure Forest (ns live : List Nm) (done : List OrderStep) (d : Dict Nm CTree) : Prop where
  tree : ∀ x ∈ live, ∃ t, d.get? x = some t ∧ t.name = x
  leaves : (live.flatMap fun x => (treeOf d x).leaves).Perm ns
  steps : (live.flatMap fun x => (treeOf d x).fullOrder.map unordered).Perm (done.map unordered)

theorem Forest.step {len : Nm → Nat} {ns live rest xs : List Nm} {z : Nm} {done : List OrderStep} {d : Dict Nm CTree}
    (h : Forest ns live done d) (h1 : live.Perm (xs ++ rest)) (h2 : xs ≠ []) (h2' : xs.length ≤ 2) (h3 : z ∉ rest) :
    ∃ d', treeStep len d (xs, z) = some d' ∧ Forest ns (z :: rest) (done ++ [(xs, z)]) d' := by
  have hin : ∀ x ∈ xs ++ rest, x ∈ live := fun x hx => h1.symm.subset hx
  -- it suffices to give the new tree
  have key : ∀ (u : CTree), u.name = z → u.leaves.Perm (xs.flatMap fun x => (treeOf d x).leaves) →
      (u.fullOrder.map unordered).Perm ((xs.flatMap fun x => (treeOf d x).fullOrder.map unordered) ++ [unordered (xs, z)]) →
      Forest ns (z :: rest) (done ++ [(xs, z)]) (d.set z u) := by
    intro u hu hl hst
    have hz : treeOf (d.set z u) z = u := by unfold treeOf; rw [Dict.get?_set, if_pos rfl]; rfl
    have hr : ∀ x ∈ rest, treeOf (d.set z u) x = treeOf d x := fun x hx => by
      unfold treeOf
      rw [Dict.get?_set, if_neg (fun e : z = x => h3 (e ▸ hx))]
    refine ⟨fun x hx => ?_, ?_, ?_⟩
    · rcases List.mem_cons.1 hx with rfl | hx
      · exact ⟨u, by rw [Dict.get?_set, if_pos rfl], hu⟩
      · rw [Dict.get?_set, if_neg (fun e : z = x => h3 (e ▸ hx))]
        exact h.tree x (hin x (List.mem_append_right _ hx))
    · rw [List.flatMap_cons, hz]
      have e : (rest.flatMap fun x => (treeOf (d.set z u) x).leaves) = rest.flatMap fun x => (treeOf d x).leaves :=
        List.flatMap_congr fun x hx => by rw [hr x hx]
      rw [e]
      refine (hl.append_right _).trans ?_
      rw [← List.flatMap_append]
      exact (h1.symm.flatMap_right _).trans h.leaves
    · rw [List.flatMap_cons, hz]
      have e : (rest.flatMap fun x => (treeOf (d.set z u) x).fullOrder.map unordered) =
          rest.flatMap fun x => (treeOf d x).fullOrder.map unordered :=
        List.flatMap_congr fun x hx => by rw [hr x hx]
      rw [e]
      refine (hst.append_right _).trans ?_
      rw [List.append_assoc, List.singleton_append]
      refine List.perm_middle.trans ?_
      rw [← List.flatMap_append, List.map_append, List.map_singleton]
      exact (List.Perm.cons _ ((h1.symm.flatMap_right _).trans h.steps)).trans (List.perm_append_singleton _ _).symm
  match xs, h2, h2' with
  | [x], _, _ =>
    obtain ⟨t, ht, hn⟩ := h.tree x (hin x (by simp))
    have hx : treeOf d x = t := by unfold treeOf; rw [ht]; rfl
    refine ⟨d.set z (.one z t), by simp [treeStep, ht], key _ rfl ?_ ?_⟩
    · simp [hx, CTree.leaves]
    · simp [hx, fullOrder, hn]
  | [x, y], _, _ =>
    obtain ⟨t, ht, hn⟩ := h.tree x (hin x (by simp))
    obtain ⟨u, hu, hm⟩ := h.tree y (hin y (by simp))
    have hx : treeOf d x = t := by unfold treeOf; rw [ht]; rfl
    have hy : treeOf d y = u := by unfold treeOf; rw [hu]; rfl
    obtain ⟨e1, e2, e3⟩ := mk2_spec len z t u
    refine ⟨d.set z (mk2 len z t u), by simp [treeStep, ht, hu], key _ e1 ?_ ?_⟩
    · simpa [hx, hy] using e2
    · rw [hn, hm] at e3
      simpa [hx, hy] using e3
  | _ :: _ :: _ :: _, _, h => simp at h

theorem Forest.steps_all {len : Nm → Nat} {ns : List Nm} {last : Nm} {order : List OrderStep} :
    ∀ {live : List Nm} {done : List OrderStep} {d : Dict Nm CTree}, Forest ns live done d → ValidOrder live order last →
      (∀ s ∈ order, s.1.length ≤ 2) →
      ∃ d', order.foldlM (treeStep len) d = some d' ∧ Forest ns [last] (done ++ order) d' := by
  induction order with
  | nil =>
    intro live done d h hv _
    cases hv
    exact ⟨d, rfl, by simpa using h⟩
  | cons s order ih =>
    intro live done d h hv hb
    cases hv with
    | step h1 h2 h3 h4 =>
      obtain ⟨d', e1, e2⟩ := h.step (len := len) h1 h2 (hb _ List.mem_cons_self) h3
      obtain ⟨d'', e3, e4⟩ := ih e2 h4 fun s hs => hb s (by simp [hs])
      refine ⟨d'', ?_, by simpa using e4⟩
      rw [List.foldlM_cons, e1]
      exact e3

theorem forest_init (ns : List Nm) : Forest ns ns [] (ns.map fun n => (n, CTree.leaf n)) := by
  have hg : ∀ x ∈ ns, Dict.get? (ns.map fun n => (n, CTree.leaf n)) x = some (.leaf x) := by
    intro x hx
    induction ns with
    | nil => simp at hx
    | cons n ns ih =>
      rw [List.map_cons, Dict.get?_cons]
      split
      · rename_i e; rw [e]
      · rename_i e
        rcases List.mem_cons.1 hx with rfl | hx
        · exact absurd rfl e
        · exact ih hx
  have ht : ∀ x ∈ ns, treeOf (ns.map fun n => (n, CTree.leaf n)) x = .leaf x := fun x hx => by
    unfold treeOf; rw [hg x hx]; rfl
  refine ⟨fun x hx => ⟨_, hg x hx, rfl⟩, ?_, ?_⟩
  · rw [List.flatMap_congr (g := fun x => [x]) fun x hx => by rw [ht x hx]; rfl]
    simp
  · rw [List.flatMap_congr (g := fun _ => []) fun x hx => by rw [ht x hx]; rfl]
    simp

theorem treeOrder_spec (len : Nm → Nat) {ns : List Nm} {order : List OrderStep} (hv : ValidOrder ns order (.str "#"))
    (hs : SingleAssignment ns order) (hb : ∀ s ∈ order, s.1.length ≤ 2) :
    ∃ o', treeOrder len ns order = some o' ∧ ValidOrder ns o' (.str "#") ∧ (o'.map unordered).Perm (order.map unordered) := by
  obtain ⟨d, h1, h2⟩ := Forest.steps_all (len := len) (forest_init ns) hv hb
  obtain ⟨t, ht, hn⟩ := h2.tree (.str "#") (by simp)
  have hx : treeOf d (.str "#") = t := by unfold treeOf; rw [ht]; rfl
  have hl := h2.leaves
  have hst := h2.steps
  simp only [List.flatMap_cons, List.flatMap_nil, List.append_nil, hx, List.nil_append] at hl hst
  refine ⟨t.fullOrder, ?_, ?_, hst⟩
  · unfold treeOrder
    rw [h1]
    dsimp only
    rw [ht]
    rfl
  · have hres : (t.fullOrder.map (·.2)).Perm (order.map (·.2)) := by
      have := hst.map Prod.snd
      simpa [unordered, Function.comp_def] using this
    have hnd : t.names.Nodup := (t.names_perm.trans (hl.append hres)).nodup_iff.2 hs
    have := t.runs [] hnd (by simp)
    rw [List.append_nil, hn] at this
    exact validOrder_iff.2 (this.permL hl)

/-! ## Orders as paths -/

theorem idxOf_getElem? {l : List Nm} {i : Nat} {x : Nm} (hn : l.Nodup) (h : l[i]? = some x) : x ∈ l ∧ l.idxOf x = i := by
  obtain ⟨h1, h2⟩ := List.getElem?_eq_some_iff.1 h
  subst h2
  exact ⟨List.getElem_mem _, hn.idxOf_getElem _ _⟩

theorem orderToPath_valid {ns : List Nm} {o : List OrderStep} {last : Nm} (h : ValidOrder ns o last) (hp : Pairwise2 o)
    (hn : ns.Nodup) : ∃ p, orderToPath ns o = some p ∧ ValidPath ns.length p ∧ p.length = o.length := by
  induction o generalizing ns with
  | nil => cases h; exact ⟨[], rfl, .done, rfl⟩
  | cons s o ih =>
    cases h with
    | @step _ xs rest z _ _ h1 h2 h3 h4 =>
      have hl := hp _ List.mem_cons_self
      obtain ⟨x, y, rfl⟩ := List.length_eq_two.1 hl
      have hn' := h1.nodup_iff.1 hn
      have hx : x ∈ ns := h1.symm.subset (by simp)
      have hy : y ∈ ns := h1.symm.subset (by simp)
      have hxy : x ≠ y := by
        rintro rfl
        simp at hn'
      have hij : ns.idxOf x ≠ ns.idxOf y := fun hc => hxy ((List.idxOf_inj hx).1 hc)
      have hix : ns.idxOf x < ns.length := List.idxOf_lt_length_iff.2 hx
      have hiy : ns.idxOf y < ns.length := List.idxOf_lt_length_iff.2 hy
      have hperm := eraseIdx_two_perm (List.getElem?_idxOf hx) (List.getElem?_idxOf hy) hij
      have hr : ((ns.eraseIdx (max (ns.idxOf x) (ns.idxOf y))).eraseIdx (min (ns.idxOf x) (ns.idxOf y))).Perm rest :=
        (List.perm_append_left_iff [x, y]).1 (hperm.symm.trans h1)
      have hlen := hperm.length_eq
      generalize hR : (ns.eraseIdx (max (ns.idxOf x) (ns.idxOf y))).eraseIdx (min (ns.idxOf x) (ns.idxOf y)) = R at hr hlen
      have hz : (z :: rest).Perm (R ++ [z]) := (hr.symm.cons z).trans (List.perm_append_singleton _ _).symm
      have hznd : (z :: rest).Nodup := by
        rw [List.nodup_cons]
        refine ⟨h3, hn'.sublist (List.sublist_append_right _ _)⟩
      obtain ⟨p, e1, e2, e3⟩ := ih (h4.perm hz) (fun s hs => hp s (List.mem_cons_of_mem _ hs)) (hz.nodup_iff.1 hznd)
      refine ⟨[ns.idxOf x, ns.idxOf y] :: p, ?_, ?_, by simp [e3]⟩
      · rw [orderToPath, if_pos ⟨hx, hy⟩]
        dsimp only
        rw [hR, e1]
        rfl
      · have hm : ns.length = (R ++ [z]).length + 1 := by
          rw [hlen]; simp
        rw [hm]
        exact .two (by omega) (by omega) hij e2

theorem orderToPath_setLast (rhs : Nm) : ∀ (o o' : List OrderStep) (ns : List Nm), setLastName rhs o = some o' →
    orderToPath ns o' = orderToPath ns o := by
  intro o
  induction o with
  | nil => intro o' ns h; simp [setLastName] at h
  | cons s o ih =>
    intro o' ns h
    obtain ⟨xs, w⟩ := s
    cases o with
    | nil =>
      rw [setLastName, Option.some.injEq] at h
      subst h
      match xs with
      | [] => rfl
      | [_] => rfl
      | x :: y :: _ => rw [orderToPath, orderToPath]; rfl
    | cons t o =>
      rw [setLastName] at h
      obtain ⟨o2, h1, rfl⟩ := Option.map_eq_some_iff.1 h
      match xs with
      | [] => rfl
      | [_] => rfl
      | x :: y :: _ =>
        rw [orderToPath, orderToPath]
        dsimp only
        rw [ih o2 _ h1]

theorem pairLoop_roundtrip (rhs : Nm) {n : Nat} {path : List (List Nat)} (hv : ValidPath n path) :
    ∀ (lhs : List Nm) (acc : List OrderStep) (k : Int), lhs.length = n → (∀ p ∈ path, p.length = 2) → lhs.Nodup →
    (∀ j, k ≤ j → freshName j ∉ lhs) →
    ∃ (new : List OrderStep) (k' : Int), pairLoop rhs path lhs acc k = some (acc ++ new, k') ∧ orderToPath lhs new = some path ∧
      (path ≠ [] → new ≠ []) := by
  induction hv with
  | done => intro lhs acc k _ _ _ _; exact ⟨[], k, by simp [pairLoop], by cases lhs <;> rfl, by simp⟩
  | one _ _ _ => intro lhs acc k _ hp; exact absurd (hp _ List.mem_cons_self) (by simp)
  | @two n i j p hi hj hij hp ih =>
    intro lhs acc k hl hlen hnd hf
    have hx : lhs[i]? = some (lhs[i]'(by omega)) := List.getElem?_eq_getElem (by omega)
    generalize lhs[i]'(by omega) = x at hx
    have hy : lhs[j]? = some (lhs[j]'(by omega)) := List.getElem?_eq_getElem (by omega)
    generalize lhs[j]'(by omega) = y at hy
    have hperm := eraseIdx_two_perm hx hy hij
    obtain ⟨hx1, hx2⟩ := idxOf_getElem? hnd hx
    obtain ⟨hy1, hy2⟩ := idxOf_getElem? hnd hy
    generalize hR : (lhs.eraseIdx (max i j)).eraseIdx (min i j) = R at hperm
    have hRin : ∀ a ∈ R, a ∈ lhs := fun a ha => hperm.symm.subset (List.mem_append_right _ ha)
    have hnd' : (R ++ [freshName k]).Nodup := by
      rw [(List.perm_append_singleton _ _).nodup_iff, List.nodup_cons]
      exact ⟨fun hc => hf k le_rfl (hRin _ hc), (hperm.nodup_iff.1 hnd).sublist (List.sublist_append_right _ _)⟩
    obtain ⟨new, k', e1, e2, _⟩ := ih (R ++ [freshName k]) (acc ++ [([x, y], freshName k)]) (k + 1)
      (by have := hperm.length_eq; simp at this ⊢; omega) (fun q hq => hlen q (List.mem_cons_of_mem _ hq)) hnd' (by
        intro m hm hc
        rw [List.mem_append, List.mem_singleton] at hc
        rcases hc with hc | hc
        · exact hf m (by omega) (hRin _ hc)
        · have := freshName_inj hc; omega)
    refine ⟨([x, y], freshName k) :: new, k', ?_, ?_, by simp⟩
    · rw [pairLoop, hx, hy]
      dsimp only
      rw [hR, e1]
      simp
    · rw [orderToPath, if_pos ⟨hx1, hy1⟩]
      dsimp only
      rw [hx2, hy2, hR, e2]
      rfl

end Verif
