import Verif.Lemmas.UctBranch
/-!
# `UndirectedContractionTree`: the cost depends on the tree only, and exchanging branches is undone by exchanging them again
-/

namespace Verif

open UT

theorem UT.Shape.perm {n : Nat} {adj adj' : Nat → List Nat} {p : Nat} {T : UT} (h : Shape n adj p T)
    (he : ∀ x ∈ T.labels, (adj' x).Perm (adj x)) : Shape n adj' p T := by
  induction T generalizing p with
  | leaf v =>
    have := he v (by simp [labels])
    rw [h.2] at this
    exact ⟨h.1, List.perm_singleton.1 this⟩
  | node v l r ihl ihr =>
    exact ⟨h.1, (he v (by simp [labels])).trans h.2.1, ihl h.2.2.1 fun x hx => he x (by simp [labels, hx]),
      ihr h.2.2.2 fun x hx => he x (by simp [labels, hx])⟩

namespace Uct

theorem par_unique {f h : Nat → Nat} {p : Nat} {T : UT} (hf : Par f p T) (hh : Par h p T) : ∀ x ∈ T.labels, f x = h x := by
  induction T generalizing p with
  | leaf v =>
    intro x hx
    simp only [labels, List.mem_singleton] at hx
    subst hx
    exact hf.top.trans hh.top.symm
  | node v l r ihl ihr =>
    intro x hx
    rw [labels, List.mem_cons, List.mem_append] at hx
    rcases hx with rfl | hx | hx
    · exact hf.1.trans hh.1.symm
    · exact ihl hf.2.1 hh.2.1 x hx
    · exact ihr hf.2.2 hh.2.2 x hx

/-- The two are the same tree with the same root. -/
structure Same (g g' : Uct) : Prop where
  n : g'.n = g.n
  opn : g'.opn = g.opn
  sub : g'.sub = g.sub
  nb : ∀ x, x < 2 * g.n - 2 → g'.nb x = g.nb x
  root : g'.root = g.root ∨ g'.root = (g.root.2, g.root.1)

theorem Same.adj {g g' : Uct} (hs : Same g g') (h : g.Inv) (h' : g'.Inv) {x : Nat} (hx : x < 2 * g.n - 2) : (g'.adj x).Perm (g.adj x) := by
  refine (List.perm_ext_iff_of_nodup (h'.nbrs (by rw [hs.n]; exact hx)).1 (h.nbrs hx).1).2 fun y => ?_
  rw [← mem_nb, ← mem_nb, hs.nb x hx]

theorem Same.sd {g g' : Uct} (hs : Same g g') (h : g.Inv) (h' : g'.Inv) {x y : Nat} (hx : x < 2 * g.n - 2) (hy : y ∈ g.adj x) :
    g'.sd x y = g.sd x y := by
  obtain ⟨_, _, hc⟩ := h.tree
  obtain ⟨Tx, Ty, hc'⟩ := hc.move hx hy
  have hl : ∀ z ∈ Ty.labels, z < 2 * g.n - 2 := fun z hz => hc'.mem.2 (Or.inr hz)
  have h1 := h.sd_sub hc'.sv hx hl
  have hsh : Shape g'.n g'.adj x Ty := by
    rw [hs.n]
    exact hc'.sv.perm fun z hz => hs.adj h h' (hl z hz)
  have h2 := h'.sd_sub hsh (by rw [hs.n]; exact hx) (by rw [hs.n]; exact hl)
  rw [hc'.tv] at h1 h2
  rw [h1, h2, hs.sub]

theorem Same.parent {g g' : Uct} (hs : Same g g') (h : g.Inv) (h' : g'.Inv) {x : Nat} (hx : x < 2 * g.n - 2) : g'.parent x = g.parent x := by
  obtain ⟨Tu, Tv, hc⟩ := h.tree
  have hlu : ∀ x ∈ Tu.labels, x < 2 * g.n - 2 := fun x hx => hc.mem.2 (Or.inl hx)
  have hlv : ∀ x ∈ Tv.labels, x < 2 * g.n - 2 := fun x hx => hc.mem.2 (Or.inr hx)
  have hd := List.disjoint_of_nodup_append hc.nodup
  have mu : g.root.1 ∈ Tu.labels := by have := Tu.top_mem; rwa [hc.tu] at this
  have mv : g.root.2 ∈ Tv.labels := by have := Tv.top_mem; rwa [hc.tv] at this
  have shu : Shape g'.n g'.adj g.root.2 Tu := by
    rw [hs.n]
    exact hc.su.perm fun z hz => hs.adj h h' (hlu z hz)
  have shv : Shape g'.n g'.adj g.root.1 Tv := by
    rw [hs.n]
    exact hc.sv.perm fun z hz => hs.adj h h' (hlv z hz)
  have pu := h.parents.par hc.su hlu (fun e => hd e.2 mv)
  have pv := h.parents.par hc.sv hlv (fun e => hd mu e.1)
  have pu' : Par g'.parent g.root.2 Tu := by
    refine h'.parents.par shu (by rw [hs.n]; exact hlu) ?_
    rcases hs.root with e | e <;> rw [e]
    · exact fun e => hd e.2 mv
    · exact fun e => hd e.1 mv
  have pv' : Par g'.parent g.root.1 Tv := by
    refine h'.parents.par shv (by rw [hs.n]; exact hlv) ?_
    rcases hs.root with e | e <;> rw [e]
    · exact fun e => hd mu e.1
    · exact fun e => hd mu e.2
  rcases hc.mem.1 hx with hx | hx
  · exact par_unique pu' pu x hx
  · exact par_unique pv' pv x hx

/-- The cost depends on the tree and the root only. -/
theorem Same.cost {g g' : Uct} (hs : Same g g') (h : g.Inv) (h' : g'.Inv) : g'.cost = g.cost := by
  obtain ⟨_, _, hc⟩ := h.tree
  have hroot := hc.adjacent
  have ho : ∀ {x y}, x < 2 * g.n - 2 → y ∈ g.adj x → g'.openAt x y = g.openAt x y := by
    intro x y hx hy
    have hy' := (h.nbrs hx).2.2 y hy
    rw [openAt_eq, openAt_eq, hs.n, hs.opn, hs.sd h h' hx hy, hs.sd h h' hy'.2.1 hy'.1]
  have hv : ∀ y, y < 2 * g.n - 2 → g'.vcost y = g.vcost y := by
    intro y hy
    unfold vcost
    have hp := h.parents.mem y hy
    have hp' := (h.nbrs hy).2.2 _ hp
    rw [hs.parent h h' hy, hs.nb y hy, ho hp'.2.1 hp'.1]
    congr 1
    refine Finset.biUnion_congr rfl fun z hz => ho hy ?_
    exact mem_nb.1 (Finset.mem_of_mem_erase hz)
  have hr : g'.rcost = g.rcost := by
    have e1 : g'.openAt g.root.1 g.root.2 = g.openAt g.root.1 g.root.2 := ho hroot.2.2.1 hroot.1
    have e2 : g'.openAt g.root.2 g.root.1 = g.openAt g.root.2 g.root.1 := ho hroot.2.2.2.1 hroot.2.1
    unfold rcost
    rcases hs.root with e | e <;> rw [e]
    · rw [e1, e2, hs.opn]
    · rw [e1, e2, hs.opn]
      exact Sw.stepCost_comm _ _ _
  rw [h'.total, h.total, h'.root, h.root, hr, hs.n]
  congr 1
  refine Finset.sum_congr rfl fun y hy => ?_
  rw [Finset.mem_Ico] at hy
  rw [h'.node y (by rw [hs.n]; exact hy.1) (by rw [hs.n]; exact hy.2), h.node y hy.1 hy.2, hv y hy.2]

/-- Exchanging two branches and exchanging them back. -/
theorem Sw.undo {g g1 g2 : Uct} (h : g.Inv) {u c0 a v c1 b a' b' : Nat} (h1 : Sw g g1 u c0 a v c1 b) (h2 : Sw g1 g2 u c1 a' v c0 b') : Same g g2 := by
  have F := h1.four
  obtain ⟨_, _, hc⟩ := h.tree
  have hroot := hc.adjacent
  clear hc
  have ea : a' = a := by
    have e := h2.nu
    rw [h1.nu'] at e
    have : a' ∈ ({v, c1, a} : Finset Nat) := by rw [e]; simp
    simp only [Finset.mem_insert, Finset.mem_singleton] at this
    have := h2.ha
    tauto
  have eb : b' = b := by
    have e := h2.nv
    rw [h1.nv'] at e
    have : b' ∈ ({u, c0, b} : Finset Nat) := by rw [e]; simp
    simp only [Finset.mem_insert, Finset.mem_singleton] at this
    have := h2.hb
    tauto
  subst ea eb
  refine ⟨h2.n.trans h1.n, h2.opn.trans h1.opn, h2.sub.trans h1.sub, fun x hx => ?_, ?_⟩
  · by_cases e1 : x = u
    · subst e1; rw [h2.nu', h1.nu]
    · by_cases e2 : x = v
      · subst e2; rw [h2.nv', h1.nv]
      · by_cases e3 : x = c0
        · subst e3
          have hm : u ∈ g.nb x := (h1.sym u h1.hu.2 x (by rw [h1.nu]; simp)).1
          rw [h2.n1, h1.n0, Finset.erase_insert, Finset.insert_erase hm]
          rw [Finset.mem_erase, not_and]
          intro _ hv
          exact F.nc0 (mem_nb.1 (h1.sym x hx v hv).1)
        · by_cases e4 : x = c1
          · subst e4
            have hm : v ∈ g.nb x := (h1.sym v h1.hv.2 x (by rw [h1.nv]; simp)).1
            rw [h2.n0, h1.n1, Finset.erase_insert, Finset.insert_erase hm]
            rw [Finset.mem_erase, not_and]
            intro _ hv
            exact F.nc1 (mem_nb.1 (h1.sym x hx u hv).1)
          · rw [h2.no x e1 e2 e4 e3, h1.no x e1 e2 e3 e4]
  · by_cases r0 : g.root = (u, c0) ∨ g.root = (c0, u)
    · have := h2.r1 (Or.inl (h1.r0 r0))
      rw [this]
      rcases r0 with e | e <;> rw [e]
      · exact Or.inl rfl
      · exact Or.inr rfl
    · by_cases r1 : g.root = (v, c1) ∨ g.root = (c1, v)
      · have := h2.r0 (Or.inl (h1.r1 r1))
        rw [this]
        rcases r1 with e | e <;> rw [e]
        · exact Or.inl rfl
        · exact Or.inr rfl
      · have hr := h1.ro r0 r1
        refine Or.inl ((h2.ro ?_ ?_).trans hr)
        · rw [hr]
          rintro (e | e) <;> rw [e] at hroot
          · exact F.nc1 hroot.1
          · exact F.nc1 hroot.2.1
        · rw [hr]
          rintro (e | e) <;> rw [e] at hroot
          · exact F.nc0 hroot.1
          · exact F.nc0 hroot.2.1

/-- `switch_branches` twice. -/
theorem Inv.switch_twice {g : Uct} (h : g.Inv) (hS : g.IsStem) {X Y : List Nat} {t0 u v t1 : Nat}
    (e : g.stem = X ++ (t0 :: u :: v :: t1 :: Y)) :
    ∃ g1 g2, g.switchBranches (X.length + 1) = some g1 ∧ g1.switchBranches (X.length + 1) = some g2 ∧ g2.Inv ∧ g2.stem = g.stem ∧ Same g g2 := by
  obtain ⟨g1, c0, c1, a1, a2, a3, a4, a5⟩ := h.switch_branches hS e
  obtain ⟨g2, d0, d1, b1, b2, b3, b4, b5⟩ := a2.switch_branches a3 (a4.trans e)
  have ea : d0 = c1 := by
    have e := b5.nu
    rw [a5.nu'] at e
    have : d0 ∈ ({v, c1, t0} : Finset Nat) := by rw [e]; simp
    simp only [Finset.mem_insert, Finset.mem_singleton] at this
    have h1 := b5.ha
    have h2 := b5.four.c0v
    tauto
  have eb : d1 = c0 := by
    have e := b5.nv
    rw [a5.nv'] at e
    have : d1 ∈ ({u, c0, t1} : Finset Nat) := by rw [e]; simp
    simp only [Finset.mem_insert, Finset.mem_singleton] at this
    have h1 := b5.hb
    have h2 := b5.four.c1u
    tauto
  subst ea eb
  exact ⟨g1, g2, a1, b1, b2, b4.trans a4, a5.undo h b5⟩

/-- `merge_branches`, then `unmerge_branches` with the branch that was returned. -/
theorem Inv.merge_unmerge {g : Uct} (h : g.Inv) (hS : g.IsStem) {X Y : List Nat} {t0 u v t1 : Nat}
    (e : g.stem = X ++ (t0 :: u :: v :: t1 :: Y)) :
    ∃ g1 c0 g2, g.mergeBranches (X.length + 1) = some (g1, c0) ∧ g1.unmergeBranches (X.length + 1) (some c0) = some g2 ∧ g2.Inv ∧
      g2.stem = g.stem ∧ Same g g2 := by
  obtain ⟨g1, c0, c1, a1, a2, a3, a4, a5⟩ := h.merge_branches hS e
  have hF := a5.four
  obtain ⟨g2, c, b, b1, b2, b3, b4, b5, b6⟩ := a2.unmerge_branches a3 a4 (v := v) (c0 := some c0)
    (by rw [← mem_nb, a5.nu']; simp) (fun e => a5.ha.2.1 e.symm) (fun e => hF.c1v e.symm) (by rw [a5.n]; exact a5.hv.1)
    (fun c hc => by
      simp only [Option.some.injEq] at hc
      subst hc
      exact ⟨by rw [← mem_nb, a5.nv']; simp, hF.c0u⟩)
  have := b5 c0 rfl
  subst this
  exact ⟨g1, c, g2, a1, b1, b2, b4.trans e.symm, a5.undo h b6⟩

end Uct

end Verif
