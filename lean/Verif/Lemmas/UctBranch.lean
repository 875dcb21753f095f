import Verif.Lemmas.UctCost
/-!
# `UndirectedContractionTree`: exchanging, merging and splitting the branches of the stem
-/

namespace Verif

open UT

namespace Uct

/-- The stem is a path of the tree. -/
def IsStem (g : Uct) : Prop := IsGraphPath g.adj g.stem ∧ ∀ x ∈ g.stem, x < 2 * g.n - 2

theorem window {l z : List Nat} {k : Nat} (hz : z ≠ []) (h : (l.drop k).take z.length = z) :
    ∃ X Y, l = X ++ (z ++ Y) ∧ X.length = k := by
  have hk : k < l.length := by
    by_contra hc
    rw [List.drop_eq_nil_of_le (by omega)] at h
    exact hz (by simpa using h.symm)
  refine ⟨l.take k, (l.drop k).drop z.length, ?_, by rw [List.length_take]; omega⟩
  have h1 := List.take_append_drop z.length (l.drop k)
  rw [h] at h1
  rw [h1, List.take_append_drop]

theorem stem4_spec {g : Uct} {i a b c d : Nat} (h : g.stem4 i = some (a, b, c, d)) :
    ∃ X Y, g.stem = X ++ (a :: b :: c :: d :: Y) ∧ X.length + 1 = i := by
  unfold stem4 at h
  split at h
  · rename_i a' b' c' d' heq
    split at h
    · simp at h
    · simp only [Option.some.injEq, Prod.mk.injEq] at h
      obtain ⟨rfl, rfl, rfl, rfl⟩ := h
      obtain ⟨X, Y, h1, h2⟩ := window (z := [a', b', c', d']) (by simp) heq
      exact ⟨X, Y, h1, by omega⟩
  · simp at h

theorem stem4_of {g : Uct} {a b c d : Nat} {X Y : List Nat} (h : g.stem = X ++ (a :: b :: c :: d :: Y)) :
    g.stem4 (X.length + 1) = some (a, b, c, d) := by
  unfold stem4
  rw [h]
  simp

/-- The neighbour on the branch. -/
theorem third_eq {g : Uct} {u a b c : Nat} (hn : (g.adj u).Nodup) (h : g.nb u = {a, b, c}) (ha : c ≠ a) (hb : c ≠ b) : g.third u a b = some c := by
  have hf : ((g.adj u).filter fun x => decide (x ≠ a ∧ x ≠ b)) = [c] := by
    have hnd : ((g.adj u).filter fun x => decide (x ≠ a ∧ x ≠ b)).Nodup := hn.filter _
    have hm : ∀ x, x ∈ ((g.adj u).filter fun x => decide (x ≠ a ∧ x ≠ b)) ↔ x ∈ [c] := by
      intro x
      have : x ∈ g.nb u ↔ x ∈ ({a, b, c} : Finset Nat) := by rw [h]
      rw [mem_nb] at this
      rw [List.mem_filter, this]
      simp only [Finset.mem_insert, Finset.mem_singleton, decide_eq_true_eq, List.mem_singleton]
      constructor
      · rintro ⟨h1, h2, h3⟩
        tauto
      · rintro rfl
        exact ⟨Or.inr (Or.inr rfl), ha, hb⟩
    exact List.perm_singleton.1 ((List.perm_ext_iff_of_nodup hnd (by simp)).2 hm)
  unfold third
  rw [hf]

theorem third_some {g : Uct} {u a b c : Nat} (h : g.third u a b = some c) : c ∈ g.adj u ∧ c ≠ a ∧ c ≠ b := by
  unfold third at h
  split at h
  · rename_i c' heq
    simp only [Option.some.injEq] at h
    subst h
    have : c' ∈ ((g.adj u).filter fun x => decide (x ≠ a ∧ x ≠ b)) := by rw [heq]; simp
    rw [List.mem_filter] at this
    simpa using this
  · simp at h

theorem nb_three {g : Uct} (h : g.Inv) {u a b c : Nat} (hu : u < 2 * g.n - 2) (ha : a ∈ g.adj u) (hb : b ∈ g.adj u) (hc : c ∈ g.adj u)
    (hab : a ≠ b) (hac : c ≠ a) (hbc : c ≠ b) : g.nb u = {a, b, c} := by
  have hn := h.nbrs hu
  have hi := h.internal hu ha hb hab
  rw [if_neg (Nat.not_lt.2 hi)] at hn
  have hs : ({a, b, c} : Finset Nat) ⊆ g.nb u := by
    intro x hx
    simp only [Finset.mem_insert, Finset.mem_singleton] at hx
    rw [mem_nb]
    rcases hx with rfl | rfl | rfl
    · exact ha
    · exact hb
    · exact hc
  refine (Finset.eq_of_subset_of_card_le hs ?_).symm
  have h1 : (g.nb u).card = 3 := by
    unfold nb
    rw [List.toFinset_card_of_nodup hn.1, hn.2.1]
  have h2 : ({a, b, c} : Finset Nat).card = 3 := Finset.card_eq_three.2 ⟨a, b, c, hab, hac.symm, hbc.symm, rfl⟩
  omega

theorem third_ex {g : Uct} (h : g.Inv) {u a b : Nat} (hu : u < 2 * g.n - 2) (ha : a ∈ g.adj u) (hb : b ∈ g.adj u) (hab : a ≠ b) :
    ∃ c, g.third u a b = some c := by
  have hn := h.nbrs hu
  have hi := h.internal hu ha hb hab
  rw [if_neg (Nat.not_lt.2 hi)] at hn
  obtain ⟨x, y, _, e2, e3, e4⟩ := filter_two hn.1 hn.2.1 ha
  have hb' := e4.subset hb
  have hnd := e4.nodup_iff.1 hn.1
  simp only [List.nodup_cons, List.mem_cons, List.not_mem_nil, or_false, not_or] at hnd
  simp only [List.mem_cons, List.not_mem_nil, or_false] at hb'
  rcases hb' with hb' | hb' | hb'
  · exact absurd hb'.symm hab
  · refine ⟨y, third_eq hn.1 (nb_three h hu ha hb (e4.symm.subset (by simp)) hab (fun e => hnd.1.2 e.symm) ?_) (fun e => hnd.1.2 e.symm) ?_⟩
    · rw [hb']; exact e3.symm
    · rw [hb']; exact e3.symm
  · refine ⟨x, third_eq hn.1 (nb_three h hu ha hb (e4.symm.subset (by simp)) hab (fun e => hnd.1.1 e.symm) ?_) (fun e => hnd.1.1 e.symm) ?_⟩
    · rw [hb']; exact e3
    · rw [hb']; exact e3

/-- Edges away from the exchange stay. -/
theorem Sw.keep_adj {g g' : Uct} {u c0 a v c1 b : Nat} (h : Sw g g' u c0 a v c1 b) {x y : Nat} (hx : x ≠ u) (hx' : x ≠ v) (hy : y ≠ u) (hy' : y ≠ v)
    (hm : y ∈ g.adj x) : y ∈ g'.adj x := by
  rw [← mem_nb] at hm ⊢
  by_cases e0 : x = c0
  · subst e0
    rw [h.n0]
    exact Finset.mem_insert_of_mem (Finset.mem_erase.2 ⟨hy, hm⟩)
  · by_cases e1 : x = c1
    · subst e1
      rw [h.n1]
      exact Finset.mem_insert_of_mem (Finset.mem_erase.2 ⟨hy', hm⟩)
    · rw [h.no x hx hx' e0 e1]
      exact hm

theorem Sw.keep_chain {g g' : Uct} {u c0 a v c1 b : Nat} (h : Sw g g' u c0 a v c1 b) {P : List Nat} (hu : u ∉ P) (hv : v ∉ P)
    (hP : P.IsChain fun x y => y ∈ g.adj x) : P.IsChain fun x y => y ∈ g'.adj x :=
  hP.imp_of_mem_imp fun _ _ hx hy hxy => h.keep_adj (fun e => hu (e ▸ hx)) (fun e => hv (e ▸ hx)) (fun e => hu (e ▸ hy)) (fun e => hv (e ▸ hy)) hxy

theorem chain_window {R : Nat → Nat → Prop} {X Y : List Nat} {a b c d : Nat} :
    (X ++ (a :: b :: c :: d :: Y)).IsChain R ↔ (X ++ [a]).IsChain R ∧ R a b ∧ R b c ∧ R c d ∧ (d :: Y).IsChain R := by
  rw [List.isChain_split, List.isChain_cons_cons, List.isChain_cons_cons, List.isChain_cons_cons]

theorem chain_window3 {R : Nat → Nat → Prop} {X Y : List Nat} {a b c : Nat} :
    (X ++ (a :: b :: c :: Y)).IsChain R ↔ (X ++ [a]).IsChain R ∧ R a b ∧ R b c ∧ (c :: Y).IsChain R := by
  rw [List.isChain_split, List.isChain_cons_cons, List.isChain_cons_cons]

/-- What the stem looks like around two neighbouring vertices. -/
theorem stem_around {g : Uct} (h : g.Inv) (hS : g.IsStem) {X Y : List Nat} {t0 u v t1 : Nat} (e : g.stem = X ++ (t0 :: u :: v :: t1 :: Y)) :
    (u < 2 * g.n - 2 ∧ v < 2 * g.n - 2) ∧ (t0 ∈ g.adj u ∧ v ∈ g.adj u ∧ u ∈ g.adj v ∧ t1 ∈ g.adj v) ∧
    (t0 ≠ u ∧ t0 ≠ v ∧ t0 ≠ t1 ∧ u ≠ v ∧ u ≠ t1 ∧ v ≠ t1) ∧
    (u ∉ X ++ [t0] ∧ v ∉ X ++ [t0] ∧ u ∉ t1 :: Y ∧ v ∉ t1 :: Y) ∧
    (X ++ [t0]).IsChain (fun x y => y ∈ g.adj x) ∧ (t1 :: Y).IsChain (fun x y => y ∈ g.adj x) := by
  obtain ⟨⟨hc, hnd⟩, hl⟩ := hS
  rw [e] at hc hnd hl
  obtain ⟨c1, c2, c3, c4, c5⟩ := chain_window.1 hc
  have hsym : ∀ {x y}, x ∈ X ++ (t0 :: u :: v :: t1 :: Y) → y ∈ g.adj x → x ∈ g.adj y := fun hx hy => ((h.nbrs (hl _ hx)).2.2 _ hy).1
  have hnd' := hnd
  rw [List.nodup_append', List.nodup_cons, List.nodup_cons, List.nodup_cons] at hnd'
  obtain ⟨n1, ⟨n2, n3, n4, n5⟩, n6⟩ := hnd'
  simp only [List.mem_cons, not_or] at n2 n3 n4
  refine ⟨⟨hl u (by simp), hl v (by simp)⟩, ⟨hsym (by simp) c2, c3, hsym (by simp) c3, c4⟩,
    ⟨n2.1, n2.2.1, n2.2.2.1, n3.1, n3.2.1, n4.1⟩, ⟨?_, ?_, ?_, ?_⟩, c1, c5⟩
  · rw [List.mem_append, List.mem_singleton, not_or]
    exact ⟨fun hx => n6 hx (by simp), Ne.symm n2.1⟩
  · rw [List.mem_append, List.mem_singleton, not_or]
    exact ⟨fun hx => n6 hx (by simp), Ne.symm n2.2.1⟩
  · rw [List.mem_cons, not_or]
    exact ⟨n3.2.1, n3.2.2⟩
  · rw [List.mem_cons, not_or]
    exact ⟨n4.1, n4.2⟩

/-- `switch_branches`: when the four vertices are there it succeeds, and the stem stays as it is. -/
theorem Inv.switch_branches {g : Uct} (h : g.Inv) (hS : g.IsStem) {X Y : List Nat} {t0 u v t1 : Nat}
    (e : g.stem = X ++ (t0 :: u :: v :: t1 :: Y)) :
    ∃ g' c0 c1, g.switchBranches (X.length + 1) = some g' ∧ g'.Inv ∧ g'.IsStem ∧ g'.stem = g.stem ∧
      Sw g g' u c0 t0 v c1 t1 := by
  obtain ⟨⟨lu, lv⟩, ⟨a1, a2, a3, a4⟩, ⟨b1, b2, b3, b4, b5, b6⟩, ⟨d1, d2, d3, d4⟩, d5, d6⟩ := stem_around h hS e
  obtain ⟨c0, hc0⟩ := third_ex h lu a1 a2 b2
  obtain ⟨c1, hc1⟩ := third_ex h lv a3 a4 b5
  obtain ⟨m0, x0, x0'⟩ := third_some hc0
  obtain ⟨m1, x1, x1'⟩ := third_some hc1
  obtain ⟨g', a, b, k1, k2, k3, k4⟩ := h.switch lu m0 a2 m1 x0' x1
  have hu3 := nb_three h lu a1 a2 m0 b2 x0 x0'
  have hv3 := nb_three h lv a3 a4 m1 b5 x1 x1'
  have ea : a = t0 := by
    have h1 := k3.nu
    rw [hu3] at h1
    have : a ∈ ({t0, v, c0} : Finset Nat) := by rw [h1]; simp
    simp only [Finset.mem_insert, Finset.mem_singleton] at this
    have := k3.ha
    tauto
  have eb : b = t1 := by
    have h1 := k3.nv
    rw [hv3] at h1
    have : b ∈ ({u, t1, c1} : Finset Nat) := by rw [h1]; simp
    simp only [Finset.mem_insert, Finset.mem_singleton] at this
    have := k3.hb
    tauto
  subst ea eb
  refine ⟨g', c0, c1, ?_, k2, ?_, k4, k3⟩
  · unfold switchBranches
    rw [stem4_of e]
    simp only [hc0, hc1]
    exact k1
  · have hl := hS.2
    refine ⟨⟨?_, by rw [k4]; exact hS.1.2⟩, by rw [k4, k3.n]; exact hS.2⟩
    rw [k4, e]
    rw [chain_window]
    have mu : a ∈ g'.adj u := by rw [← mem_nb, k3.nu']; simp
    have mv : b ∈ g'.adj v := by rw [← mem_nb, k3.nv']; simp
    have muv : v ∈ g'.adj u := by rw [← mem_nb, k3.nu']; simp
    exact ⟨k3.keep_chain d1 d2 d5, ((k2.nbrs (by rw [k3.n]; exact lu)).2.2 a mu).1, muv, mv, k3.keep_chain d3 d4 d6⟩

/-- `merge_branches`: the branches of `u` and `v` become one branch, at `u`. -/
theorem Inv.merge_branches {g : Uct} (h : g.Inv) (hS : g.IsStem) {X Y : List Nat} {t0 u v t1 : Nat}
    (e : g.stem = X ++ (t0 :: u :: v :: t1 :: Y)) :
    ∃ g' c0 c1, g.mergeBranches (X.length + 1) = some (g', c0) ∧ g'.Inv ∧ g'.IsStem ∧ g'.stem = X ++ (t0 :: u :: t1 :: Y) ∧
      Sw g g' u c0 t0 v t1 c1 := by
  obtain ⟨⟨lu, lv⟩, ⟨a1, a2, a3, a4⟩, ⟨b1, b2, b3, b4, b5, b6⟩, ⟨d1, d2, d3, d4⟩, d5, d6⟩ := stem_around h hS e
  obtain ⟨c0, hc0⟩ := third_ex h lu a1 a2 b2
  obtain ⟨m0, x0, x0'⟩ := third_some hc0
  obtain ⟨g', a, b, k1, k2, k3, k4⟩ := h.switch lu m0 a2 a4 x0' b5.symm
  have hu3 := nb_three h lu a1 a2 m0 b2 x0 x0'
  have ea : a = t0 := by
    have h1 := k3.nu
    rw [hu3] at h1
    have : a ∈ ({t0, v, c0} : Finset Nat) := by rw [h1]; simp
    simp only [Finset.mem_insert, Finset.mem_singleton] at this
    have := k3.ha
    tauto
  subst ea
  have hst : g'.stem.eraseIdx (X.length + 1 + 1) = X ++ (a :: u :: t1 :: Y) := by
    rw [k4, e, List.eraseIdx_append_of_length_le (by omega)]
    congr 1
    rw [show X.length + 1 + 1 - X.length = 2 by omega]
    rfl
  have k3' : Sw g { g' with stem := g'.stem.eraseIdx (X.length + 1 + 1) } u c0 a v t1 b := by
    obtain ⟨z1, z2, z3, z4, z5, z6, z7, z8, z9, z10, z11, z12, z13, z14, z15, z16, z17, z18, z19, z20, z21, z22, z23, z24, z25, z26, z27, z28, z29, z30⟩ := k3
    exact ⟨z1, z2, z3, z4, z5, z6, z7, z8, z9, z10, z11, z12, z13, z14, z15, z16, z17, z18, z19, z20, z21, z22, z23, z24, z25, z26, z27, z28, z29, z30⟩
  refine ⟨{ g' with stem := g'.stem.eraseIdx (X.length + 1 + 1) }, c0, b, ?_,
    ⟨k2.1, k2.2, ⟨k2.3.1, k2.3.2, k2.3.3⟩, ⟨k2.4.1, k2.4.2, k2.4.3⟩, k2.5, k2.6, k2.7⟩, ?_, hst, k3'⟩
  · unfold mergeBranches
    rw [stem4_of e]
    simp only [hc0, k1]
    rfl
  · have hl := hS.2
    have hnd := hS.1.2
    rw [e] at hnd hl
    have hsub : (X ++ (a :: u :: t1 :: Y)).Sublist (X ++ (a :: u :: v :: t1 :: Y)) :=
      (List.Sublist.refl X).append (((List.sublist_cons_self v _).cons_cons u).cons_cons a)
    refine ⟨⟨?_, ?_⟩, ?_⟩
    · show (g'.stem.eraseIdx (X.length + 1 + 1)).IsChain (fun x y => y ∈ g'.adj x)
      rw [hst, chain_window3]
      have mu : a ∈ g'.adj u := by rw [← mem_nb, k3.nu']; simp
      have mt : t1 ∈ g'.adj u := by rw [← mem_nb, k3.nu']; simp
      exact ⟨k3.keep_chain d1 d2 d5, ((k2.nbrs (by rw [k3.n]; exact lu)).2.2 a mu).1, mt, k3.keep_chain d3 d4 d6⟩
    · show (g'.stem.eraseIdx (X.length + 1 + 1)).Nodup
      rw [hst]
      exact hsub.nodup hnd
    · show ∀ x ∈ g'.stem.eraseIdx (X.length + 1 + 1), x < 2 * g'.n - 2
      rw [hst, k3.n]
      exact fun x hx => hl x (hsub.subset hx)

theorem insertIdx_window : ∀ (X : List Nat) (a b c : Nat) (Y : List Nat) (v : Nat),
    (X ++ (a :: b :: c :: Y)).insertIdx (X.length + 1 + 1) v = X ++ (a :: b :: v :: c :: Y) := by
  intro X
  induction X with
  | nil => intro a b c Y v; rfl
  | cons x X ih =>
    intro a b c Y v
    rw [List.cons_append, List.length_cons, List.insertIdx_succ_cons, ih]
    rfl

/-- A neighbour of the stem that is not next on it is not on it. -/
theorem off_stem {g : Uct} (h : g.Inv) {Y : List Nat} {u t v : Nat} (hu : u < 2 * g.n - 2) (ht : t ∈ g.adj u) (hv : v ∈ g.adj u)
    (hvt : v ≠ t) (hY : (t :: Y).IsChain fun x y => y ∈ g.adj x) (huY : u ∉ t :: Y) : v ∉ t :: Y := by
  obtain ⟨_, _, hc⟩ := h.tree
  obtain ⟨Tu, Tt, hc'⟩ := hc.move hu ht
  have hst : ∀ y ∈ t :: Y, y ∈ Tt.labels := hc'.sv.stays Y t (by have := Tt.top_mem; rwa [hc'.tv] at this) hY (fun e => huY (List.mem_cons_of_mem _ e))
  have hvu : v ∈ Tu.labels := by
    rcases hc'.su.closed u (by have := Tu.top_mem; rwa [hc'.tu] at this) v hv with e | e
    · exact e
    · exact absurd e.1 hvt
  exact fun hm => (List.nodup_append'.1 hc'.nodup).2.2 hvu (hst v hm)

/-- `unmerge_branches`: the branch at `u` is split. -/
theorem Inv.unmerge_branches {g : Uct} (h : g.Inv) (hS : g.IsStem) {X Y : List Nat} {t0 u t1 v : Nat}
    (e : g.stem = X ++ (t0 :: u :: t1 :: Y)) (hv : v ∈ g.adj u) (hv0 : v ≠ t0) (hv1 : v ≠ t1) {c0 : Option Nat} (hn : g.n ≤ v)
    (hc : ∀ c, c0 = some c → c ∈ g.adj v ∧ c ≠ u) :
    ∃ g' c b, g.unmergeBranches (X.length + 1) c0 = some g' ∧ g'.Inv ∧ g'.IsStem ∧ g'.stem = X ++ (t0 :: u :: v :: t1 :: Y) ∧
      (∀ c', c0 = some c' → c = c') ∧ Sw g g' u t1 t0 v c b := by
  have hS' := hS
  obtain ⟨⟨hch, hnd⟩, hl⟩ := hS'
  rw [e] at hch hnd hl
  obtain ⟨q1, q2, q3, q4⟩ := chain_window3.1 hch
  have lu : u < 2 * g.n - 2 := hl u (by simp)
  have lt0 : t0 < 2 * g.n - 2 := hl t0 (by simp)
  have hnd' := hnd
  rw [List.nodup_append', List.nodup_cons, List.nodup_cons] at hnd'
  obtain ⟨n1, ⟨n2, n3, n4⟩, n6⟩ := hnd'
  simp only [List.mem_cons, not_or] at n2 n3
  have a1 : t0 ∈ g.adj u := ((h.nbrs lt0).2.2 _ q2).1
  have huv := (h.nbrs lu).2.2 v hv
  have lv : v < 2 * g.n - 2 := huv.2.1
  have hu3 := nb_three h lu a1 q3 hv n2.2.1 hv0 hv1
  have hth := third_eq (h.nbrs lu).1 hu3 hv0 hv1
  -- the sub-branch
  have hnv := h.nbrs lv
  rw [if_neg (Nat.not_lt.2 hn)] at hnv
  obtain ⟨c, hsb, mc, hcu, hcc⟩ : ∃ c, g.subBranch u v c0 = some c ∧ c ∈ g.adj v ∧ c ≠ u ∧ ∀ c', c0 = some c' → c = c' := by
    cases c0 with
    | some c =>
      obtain ⟨h1, h2⟩ := hc c rfl
      exact ⟨c, rfl, h1, h2, fun c' hc' => by simpa using hc'⟩
    | none =>
      obtain ⟨x, y, f1, _, f3, f4⟩ := filter_two hnv.1 hnv.2.1 huv.1
      have hnd := f4.nodup_iff.1 hnv.1
      simp only [List.nodup_cons, List.mem_cons, List.not_mem_nil, or_false, not_or] at hnd
      unfold subBranch
      simp only
      rw [f1]
      refine ⟨min x y, rfl, ?_, ?_, by simp⟩
      · rcases Nat.le_total x y with hxy | hxy
        · rw [Nat.min_eq_left hxy]; exact f4.symm.subset (by simp)
        · rw [Nat.min_eq_right hxy]; exact f4.symm.subset (by simp)
      · rcases Nat.le_total x y with hxy | hxy
        · rw [Nat.min_eq_left hxy]; exact fun e => hnd.1.1 e.symm
        · rw [Nat.min_eq_right hxy]; exact fun e => hnd.1.2 e.symm
  obtain ⟨g', a, b, k1, k2, k3, k4⟩ := h.switch lu q3 hv mc hv1.symm hcu
  have ea : a = t0 := by
    have h1 := k3.nu
    rw [hu3] at h1
    have : a ∈ ({t0, t1, v} : Finset Nat) := by rw [h1]; simp
    simp only [Finset.mem_insert, Finset.mem_singleton] at this
    have := k3.ha
    tauto
  subst ea
  have hst : g'.stem.insertIdx (X.length + 1 + 1) v = X ++ (a :: u :: v :: t1 :: Y) := by
    rw [k4, e, insertIdx_window]
  have k3' : Sw g { g' with stem := g'.stem.insertIdx (X.length + 1 + 1) v } u t1 a v c b := by
    obtain ⟨z1, z2, z3, z4, z5, z6, z7, z8, z9, z10, z11, z12, z13, z14, z15, z16, z17, z18, z19, z20, z21, z22, z23, z24, z25, z26, z27, z28, z29, z30⟩ := k3
    exact ⟨z1, z2, z3, z4, z5, z6, z7, z8, z9, z10, z11, z12, z13, z14, z15, z16, z17, z18, z19, z20, z21, z22, z23, z24, z25, z26, z27, z28, z29, z30⟩
  have vY : v ∉ t1 :: Y := off_stem h lu q3 hv hv1 q4 (by rw [List.mem_cons, not_or]; exact ⟨n3.1, n3.2⟩)
  have uX : u ∉ X ++ [a] := by
    rw [List.mem_append, List.mem_singleton, not_or]
    exact ⟨fun hx => n6 hx (by simp), Ne.symm n2.1⟩
  have vX : v ∉ X ++ [a] := by
    have hsym : ∀ x ∈ X ++ [a], ∀ y ∈ g.adj x, x ∈ g.adj y := by
      intro x hx y hy
      refine ((h.nbrs (hl x ?_)).2.2 y hy).1
      rw [List.mem_append, List.mem_singleton] at hx
      rw [List.mem_append]
      rcases hx with hx | rfl
      · exact Or.inl hx
      · exact Or.inr (by simp)
    have hrev := List.isChain_reverse.2 (q1.imp_of_mem_imp fun x y hx _ hxy => hsym x hx y hxy)
    rw [List.reverse_append, List.reverse_singleton, List.singleton_append] at hrev
    have := off_stem h lu a1 hv hv0 hrev (by
      intro hx
      apply uX
      rw [← List.mem_reverse, List.reverse_append, List.reverse_singleton, List.singleton_append]
      exact hx)
    intro hx
    apply this
    rw [← List.mem_reverse, List.reverse_append, List.reverse_singleton, List.singleton_append] at hx
    exact hx
  refine ⟨{ g' with stem := g'.stem.insertIdx (X.length + 1 + 1) v }, c, b, ?_,
    ⟨k2.1, k2.2, ⟨k2.3.1, k2.3.2, k2.3.3⟩, ⟨k2.4.1, k2.4.2, k2.4.3⟩, k2.5, k2.6, k2.7⟩, ?_, hst, hcc, k3'⟩
  · unfold unmergeBranches
    have hw : (g.stem.drop (X.length + 1 - 1)).take 3 = [a, u, t1] := by
      rw [e]
      simp
    rw [hw]
    simp only [if_neg (Nat.succ_ne_zero X.length), hth, hsb, k1]
    rfl
  · refine ⟨⟨?_, ?_⟩, ?_⟩
    · show (g'.stem.insertIdx (X.length + 1 + 1) v).IsChain (fun x y => y ∈ g'.adj x)
      rw [hst, chain_window]
      have mu : a ∈ g'.adj u := by rw [← mem_nb, k3.nu']; simp
      have mv : v ∈ g'.adj u := by rw [← mem_nb, k3.nu']; simp
      have mt : t1 ∈ g'.adj v := by rw [← mem_nb, k3.nv']; simp
      exact ⟨k3.keep_chain uX vX q1, ((k2.nbrs (by rw [k3.n]; exact lu)).2.2 a mu).1, mv, mt,
        k3.keep_chain (by rw [List.mem_cons, not_or]; exact ⟨n3.1, n3.2⟩) vY q4⟩
    · show (g'.stem.insertIdx (X.length + 1 + 1) v).Nodup
      rw [hst]
      rw [List.mem_append, List.mem_singleton, not_or] at vX
      rw [List.mem_cons, not_or] at vY
      rw [List.nodup_append', List.nodup_cons, List.nodup_cons, List.nodup_cons, List.mem_cons, List.mem_cons, List.mem_cons, List.mem_cons, List.mem_cons,
        List.mem_cons, not_or, not_or, not_or, not_or, not_or, not_or]
      refine ⟨n1, ⟨⟨n2.1, fun e => vX.2 e.symm, n2.2.1, n2.2.2⟩, ⟨fun e => huv.2.2 e.symm, n3.1, n3.2⟩, ⟨vY.1, vY.2⟩, n4⟩, ?_⟩
      intro x hx hx'
      simp only [List.mem_cons] at hx'
      rcases hx' with rfl | rfl | rfl | hx'
      · exact n6 hx (by simp)
      · exact n6 hx (by simp)
      · exact vX.1 hx
      · exact n6 hx (by simp only [List.mem_cons]; tauto)
    · show ∀ x ∈ g'.stem.insertIdx (X.length + 1 + 1) v, x < 2 * g'.n - 2
      rw [hst, k3.n]
      intro x hx
      by_cases hxv : x = v
      · rw [hxv]; exact lv
      · refine hl x ?_
        simp only [List.mem_append, List.mem_cons] at hx ⊢
        tauto

end Uct

end Verif
