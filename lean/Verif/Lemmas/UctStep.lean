import Verif.Lemmas.UctInv
/-!
# `UndirectedContractionTree`: `switch_edges` and `step_root`
-/

namespace Verif

open UT

/-- A part of the tree is moved to another vertex. -/
theorem UT.Shape.retop {n : Nat} {adj adj' : Nat → List Nat} {p q : Nat} {T : UT} (h : Shape n adj p T) (hn : T.labels.Nodup)
    (ht : adj' T.top = (adj T.top ++ [q]).erase p) (ho : ∀ x ∈ T.labels, x ≠ T.top → adj' x = adj x) : Shape n adj' q T := by
  cases T with
  | leaf v =>
    refine ⟨h.1, ?_⟩
    have := h.2
    rw [show adj' v = _ from ht]
    simp only [top]
    rw [this]
    simp
  | node v l r =>
    obtain ⟨h1, h2, h3, h4⟩ := h
    rw [labels, List.nodup_cons, List.mem_append, not_or] at hn
    refine ⟨h1, ?_, h3.congr fun x hx => ho x (by simp [labels, hx]) ?_, h4.congr fun x hx => ho x (by simp [labels, hx]) ?_⟩
    · rw [show adj' v = _ from ht]
      simp only [top]
      refine ((h2.append_right [q]).erase p).trans ?_
      simp only [List.cons_append, List.nil_append, List.erase_cons_head]
      exact List.perm_append_comm (l₁ := [l.top, r.top]) (l₂ := [q])
    · rintro rfl
      exact hn.1.1 hx
    · rintro rfl
      exact hn.1.2 hx

/-- Exchanging two branches of the tree. -/
theorem Cut.exchange {n : Nat} {adj adj' : Nat → List Nat} {u v : Nat} {C0 A C1 B : UT} (h : Cut n adj u v (.node u C0 A) (.node v C1 B))
    (hu : adj' u = (adj u).erase C0.top ++ [C1.top]) (hv : adj' v = (adj v ++ [C0.top]).erase C1.top)
    (h0 : adj' C0.top = (adj C0.top ++ [v]).erase u) (h1 : adj' C1.top = (adj C1.top ++ [u]).erase v)
    (ho : ∀ x, x ≠ u → x ≠ v → x ≠ C0.top → x ≠ C1.top → adj' x = adj x) :
    Cut n adj' u v (.node u C1 A) (.node v C0 B) := by
  have hn := h.nodup
  rw [labels, labels, List.cons_append, List.nodup_cons] at hn
  obtain ⟨hnu, hn⟩ := hn
  have hn' := List.perm_middle.nodup_iff.1 hn
  rw [List.nodup_cons] at hn'
  obtain ⟨hnv, hn'⟩ := hn'
  simp only [List.mem_append, List.mem_cons, not_or] at hnu hnv
  rw [List.nodup_append', List.nodup_append', List.nodup_append'] at hn'
  obtain ⟨⟨nd0, ndA, d0A⟩, ⟨nd1, ndB, d1B⟩, dd⟩ := hn'
  have n0A : ∀ x ∈ A.labels, x ≠ C0.top := fun x hx e => d0A C0.top_mem (e ▸ hx)
  have n1B : ∀ x ∈ B.labels, x ≠ C1.top := fun x hx e => d1B C1.top_mem (e ▸ hx)
  have dl : ∀ x ∈ C0.labels ++ A.labels, ∀ y ∈ C1.labels ++ B.labels, x ≠ y := fun x hx y hy e => dd hx (e ▸ hy)
  have m0 : C0.top ∈ C0.labels ++ A.labels := List.mem_append_left _ C0.top_mem
  have m1 : C1.top ∈ C1.labels ++ B.labels := List.mem_append_left _ C1.top_mem
  have mA : A.top ∈ C0.labels ++ A.labels := List.mem_append_right _ A.top_mem
  have mB : B.top ∈ C1.labels ++ B.labels := List.mem_append_right _ B.top_mem
  obtain ⟨su1, su2, su3, su4⟩ := h.su
  obtain ⟨sv1, sv2, sv3, sv4⟩ := h.sv
  have nuL : ∀ x, x ∈ C0.labels ++ A.labels ∨ x ∈ C1.labels ++ B.labels → x ≠ u ∧ x ≠ v := by
    intro x hx
    simp only [List.mem_append] at hx
    constructor
    · rintro rfl; tauto
    · rintro rfl; tauto
  have v0 : v ≠ C0.top := (nuL _ (Or.inl m0)).2.symm
  have u1 : u ≠ C1.top := (nuL _ (Or.inr m1)).1.symm
  refine ⟨rfl, rfl, ⟨su1, ?_, ?_, ?_⟩, ⟨sv1, ?_, ?_, ?_⟩, ?_⟩
  · rw [hu]
    refine ((su2.erase C0.top).append_right [C1.top]).trans ?_
    simp only [List.erase_cons, beq_iff_eq, v0, if_false, if_true, List.cons_append, List.nil_append]
    exact List.Perm.cons _ (List.Perm.swap _ _ _)
  · refine sv3.retop nd1 h1 fun x hx hxt => ?_
    have hx' : x ∈ C1.labels ++ B.labels := List.mem_append_left _ hx
    exact ho x (nuL x (Or.inr hx')).1 (nuL x (Or.inr hx')).2 (dl _ m0 x hx').symm hxt
  · refine su4.congr fun x hx => ?_
    have hx' : x ∈ C0.labels ++ A.labels := List.mem_append_right _ hx
    exact ho x (nuL x (Or.inl hx')).1 (nuL x (Or.inl hx')).2 (n0A x hx) (dl _ hx' _ m1)
  · rw [hv]
    refine ((sv2.append_right [C0.top]).erase C1.top).trans ?_
    simp only [List.cons_append, List.nil_append, List.erase_cons, beq_iff_eq, u1, if_false, if_true]
    exact List.Perm.cons _ (List.Perm.swap _ _ _)
  · refine su3.retop nd0 h0 fun x hx hxt => ?_
    have hx' : x ∈ C0.labels ++ A.labels := List.mem_append_left _ hx
    exact ho x (nuL x (Or.inl hx')).1 (nuL x (Or.inl hx')).2 hxt (dl _ hx' _ m1)
  · refine sv4.congr fun x hx => ?_
    have hx' : x ∈ C1.labels ++ B.labels := List.mem_append_right _ hx
    exact ho x (nuL x (Or.inr hx')).1 (nuL x (Or.inr hx')).2 (dl _ m0 x hx').symm (n1B x hx)
  · refine List.Perm.trans ?_ h.perm
    rw [labels, labels, labels, labels]
    simp only [List.cons_append]
    refine List.Perm.cons _ ?_
    refine (List.perm_middle (l₁ := C1.labels ++ A.labels)).trans (List.Perm.trans ?_ (List.perm_middle (l₁ := C0.labels ++ A.labels)).symm)
    refine List.Perm.cons _ ?_
    have e1 : (C1.labels ++ A.labels ++ (C0.labels ++ B.labels)).Perm (C1.labels ++ (C0.labels ++ A.labels) ++ B.labels) := by
      simp only [List.append_assoc]
      refine List.Perm.append_left _ ?_
      rw [← List.append_assoc, ← List.append_assoc]
      exact List.perm_append_comm.append_right _
    refine e1.trans ?_
    rw [← List.append_assoc (C0.labels ++ A.labels)]
    exact List.perm_append_comm.append_right _

namespace Uct

theorem Inv.nbrs {g : Uct} (h : g.Inv) {x : Nat} (hx : x < 2 * g.n - 2) :
    (g.adj x).Nodup ∧ (g.adj x).length = (if x < g.n then 1 else 3) ∧ (∀ y ∈ g.adj x, x ∈ g.adj y ∧ y < 2 * g.n - 2 ∧ y ≠ x) := by
  obtain ⟨_, _, hc⟩ := h.tree
  exact hc.nbrs hx

/-- A vertex with two neighbours is a contraction. -/
theorem Inv.internal {g : Uct} (h : g.Inv) {x y z : Nat} (hx : x < 2 * g.n - 2) (hy : y ∈ g.adj x) (hz : z ∈ g.adj x) (hyz : y ≠ z) :
    g.n ≤ x := by
  by_contra hc
  have := (h.nbrs hx).2.1
  rw [if_pos (by omega)] at this
  obtain ⟨w, hw⟩ := List.length_eq_one_iff.1 this
  rw [hw, List.mem_singleton] at hy hz
  exact hyz (hy.trans hz.symm)

/-- Around the edge where branches are exchanged. -/
theorem Inv.around {g : Uct} (h : g.Inv) {u c0 v c1 : Nat} (hu : u < 2 * g.n - 2) (h0 : c0 ∈ g.adj u) (hv : v ∈ g.adj u)
    (h1 : c1 ∈ g.adj v) (n0 : c0 ≠ v) (n1 : c1 ≠ u) :
    ∃ C0 A C1 B, C0.top = c0 ∧ C1.top = c1 ∧ Cut g.n g.adj u v (.node u C0 A) (.node v C1 B) := by
  obtain ⟨_, _, hc⟩ := h.tree
  obtain ⟨Tu, Tv, hc⟩ := hc.move hu hv
  have hvn := ((h.nbrs hu).2.2 v hv)
  obtain ⟨C0, A, e0, hc⟩ := hc.split (h.internal hu h0 hv n0) h0 n0
  obtain ⟨C1, B, e1, hc⟩ := hc.symm.split (h.internal hvn.2.1 h1 hvn.1 n1) h1 n1
  exact ⟨C0, A, C1, B, e0, e1, hc.symm⟩

theorem Inv.four {g : Uct} {u v : Nat} {C0 A C1 B : UT} (hc : Cut g.n g.adj u v (.node u C0 A) (.node v C1 B)) :
    g.Four u C0.top v C1.top ∧ (A.top ≠ u ∧ A.top ≠ v ∧ A.top ≠ C0.top ∧ A.top ≠ C1.top) ∧
    (B.top ≠ u ∧ B.top ≠ v ∧ B.top ≠ C0.top ∧ B.top ≠ C1.top) := by
  have hn := hc.nodup
  rw [labels, labels, List.cons_append, List.nodup_cons] at hn
  obtain ⟨hnu, hn⟩ := hn
  have hn' := List.perm_middle.nodup_iff.1 hn
  rw [List.nodup_cons] at hn'
  obtain ⟨hnv, hn'⟩ := hn'
  simp only [List.mem_append, List.mem_cons, not_or] at hnu hnv
  rw [List.nodup_append', List.nodup_append', List.nodup_append'] at hn'
  obtain ⟨⟨nd0, ndA, d0A⟩, ⟨nd1, ndB, d1B⟩, dd⟩ := hn'
  have dl : ∀ x ∈ C0.labels ++ A.labels, ∀ y ∈ C1.labels ++ B.labels, x ≠ y := fun x hx y hy e => dd hx (e ▸ hy)
  have m0 : C0.top ∈ C0.labels ++ A.labels := List.mem_append_left _ C0.top_mem
  have m1 : C1.top ∈ C1.labels ++ B.labels := List.mem_append_left _ C1.top_mem
  have mA : A.top ∈ C0.labels ++ A.labels := List.mem_append_right _ A.top_mem
  have mB : B.top ∈ C1.labels ++ B.labels := List.mem_append_right _ B.top_mem
  have nuL : ∀ x, x ∈ C0.labels ++ A.labels ∨ x ∈ C1.labels ++ B.labels → x ≠ u ∧ x ≠ v := by
    intro x hx
    simp only [List.mem_append] at hx
    constructor
    · rintro rfl; tauto
    · rintro rfl; tauto
  have a0 := nuL _ (Or.inl m0)
  have a1 := nuL _ (Or.inr m1)
  have aA := nuL _ (Or.inl mA)
  have aB := nuL _ (Or.inr mB)
  refine ⟨⟨hc.adjacent.2.2.2.2, a0.1, a0.2, a1.1, a1.2, dl _ m0 _ m1, ?_, ?_⟩, ⟨aA.1, aA.2, ?_, dl _ mA _ m1⟩, ⟨aB.1, aB.2, ?_, ?_⟩⟩
  · intro hm
    have := hc.sv.2.1.subset hm
    simp only [List.mem_cons, List.not_mem_nil, or_false] at this
    rcases this with e | e | e
    · exact a0.1 e
    · exact dl _ m0 _ m1 e
    · exact dl _ m0 _ mB e
  · intro hm
    have := hc.su.2.1.subset hm
    simp only [List.mem_cons, List.not_mem_nil, or_false] at this
    rcases this with e | e | e
    · exact a1.2 e
    · exact dl _ m0 _ m1 e.symm
    · exact dl _ mA _ m1 e.symm
  · exact fun e => d0A C0.top_mem (e ▸ A.top_mem)
  · exact (dl _ m0 _ mB).symm
  · exact fun e => d1B C1.top_mem (e ▸ B.top_mem)

/-- The data of an edge after it is set. -/
theorem setSide_side (g : Uct) (u v : Nat) (s : Option (Finset Nat)) (x y : Nat) :
    (g.setSide u v s).side x y = if x = u ∧ y = v then s else g.side x y := rfl

theorem sd_congr {g g' : Uct} {x y x' y' : Nat} (h : g.side x y = g'.side x' y') : g.sd x y = g'.sd x' y' := by
  unfold sd
  rw [h]

/-- The tree within `switch_edges` after the data of the edge between `u` and `v` is computed again. -/
def renew (g3 : Uct) (u v : Nat) : Uct :=
  (g3.setSide v u (some (((g3.nb u).erase v).biUnion (g3.sd u)))).setSide u v (some (((g3.nb v).erase u).biUnion (g3.sd v)))

theorem toFinset_perm {l : List Nat} {p q r : Nat} (h : l.Perm [p, q, r]) : l.toFinset = {p, q, r} := by
  rw [List.toFinset_eq_of_perm _ _ h]
  simp

set_option maxHeartbeats 400000 in
/-- The exchange, step by step. -/
theorem Inv.exchange {g : Uct} (h : g.Inv) {u v : Nat} {C0 A C1 B : UT} (hc : Cut g.n g.adj u v (.node u C0 A) (.node v C1 B)) :
    Cut g.n ((g.mid u C0.top v C1.top).renew u v).adj u v (.node u C1 A) (.node v C0 B) ∧
    Sw g ((g.mid u C0.top v C1.top).renew u v) u C0.top A.top v C1.top B.top ∧
    preprocess2 (2 * g.n) (g.mid u C0.top v C1.top) (v, u) = some ((g.mid u C0.top v C1.top).renew u v) := by
  obtain ⟨hf, hA, hB⟩ := Inv.four hc
  obtain ⟨a1, a2, a3, a4, a5, a6, a7, a8, a9, a10, a11⟩ := mid_spec hf
  have hf' := hf
  obtain ⟨huv, h0u, h0v, h1u, h1v, hcc, hn0, hn1⟩ := hf'
  have huv' := huv.symm
  have h0u' := h0u.symm
  have h0v' := h0v.symm
  have h1u' := h1u.symm
  have h1v' := h1v.symm
  have hcc' := hcc.symm
  generalize g.mid u C0.top v C1.top = g3 at a1 a2 a3 a4 a5 a6 a7 a8 a9 a10 a11 ⊢
  have bu : g3.adj u = (g.adj u).erase C0.top ++ [C1.top] := by rw [a1]; simp
  have bv : g3.adj v = (g.adj v ++ [C0.top]).erase C1.top := by rw [a1]; simp [huv']
  have b0 : g3.adj C0.top = (g.adj C0.top ++ [v]).erase u := by rw [a1]; simp [h0u, h0v]
  have b1 : g3.adj C1.top = (g.adj C1.top ++ [u]).erase v := by rw [a1]; simp [h1u, h1v, hcc']
  have bo : ∀ x, x ≠ u → x ≠ v → x ≠ C0.top → x ≠ C1.top → g3.adj x = g.adj x := by
    intro x e1 e2 e3 e4
    rw [a1]
    simp [e1, e2, e3, e4]
  have hcut := hc.exchange bu bv b0 b1 bo
  have hadj := hcut.adjacent
  have hnu := hcut.nbrs hadj.2.2.1
  have hnv := hcut.nbrs hadj.2.2.2.1
  have iu : g.n ≤ u := hc.su.1
  have iv : g.n ≤ v := hc.sv.1
  rw [if_neg (Nat.not_lt.2 iu)] at hnu
  rw [if_neg (Nat.not_lt.2 iv)] at hnv
  have hold := hc.adjacent
  -- the neighbours as sets
  have nu3 : g3.nb u = {v, C1.top, A.top} := toFinset_perm hcut.su.2.1
  have nv3 : g3.nb v = {u, C0.top, B.top} := toFinset_perm hcut.sv.2.1
  have nu : g.nb u = {v, C0.top, A.top} := toFinset_perm hc.su.2.1
  have nv : g.nb v = {u, C1.top, B.top} := toFinset_perm hc.sv.2.1
  have hsym : ∀ x, x < 2 * g.n - 2 → ∀ y ∈ g.nb x, x ∈ g.nb y ∧ y < 2 * g.n - 2 ∧ y ≠ x := by
    intro x hx y hy
    rw [mem_nb] at hy
    rw [mem_nb]
    exact (h.nbrs hx).2.2 y hy
  have m0 : C0.top ∈ g.nb u := by rw [nu]; simp
  have m1 : C1.top ∈ g.nb v := by rw [nv]; simp
  have mA : A.top ∈ g.nb u := by rw [nu]; simp
  have mB : B.top ∈ g.nb v := by rw [nv]; simp
  have s0 := hsym u hold.2.2.1 _ m0
  have s1 := hsym v hold.2.2.2.1 _ m1
  -- the two computations
  have hsu : ∀ c ∈ g3.adj u, c ≠ v → (g3.side u c).isSome := by
    intro c hc1 hc2
    rw [← mem_nb, nu3, Finset.mem_insert, Finset.mem_insert, Finset.mem_singleton] at hc1
    rcases hc1 with rfl | rfl | rfl
    · exact absurd rfl hc2
    · rw [a2]
      simp only [if_true, h1v, hcc', or_self, if_false]
      exact h.sides.some v _ hold.2.2.2.1 (mem_nb.1 m1)
    · rw [a2]
      simp only [if_true, hA.2.1, hA.2.2.1, hA.2.2.2, or_self, if_false]
      exact h.sides.some u _ hold.2.2.1 (mem_nb.1 mA)
  have hsv : ∀ c ∈ g3.adj v, c ≠ u → (g3.side v c).isSome := by
    intro c hc1 hc2
    rw [← mem_nb, nv3, Finset.mem_insert, Finset.mem_insert, Finset.mem_singleton] at hc1
    rcases hc1 with rfl | rfl | rfl
    · exact absurd rfl hc2
    · rw [a2]
      simp only [huv', if_true, h0u, hcc, or_self, if_false]
      exact h.sides.some u _ hold.2.2.1 (mem_nb.1 m0)
    · rw [a2]
      simp only [huv', if_true, hB.1, hB.2.2.1, hB.2.2.2, or_self, if_false]
      exact h.sides.some v _ hold.2.2.2.1 (mem_nb.1 mB)
  have hvu0 : g3.side v u = none := by rw [a2]; simp [huv']
  have huv0 : g3.side u v = none := by rw [a2]; simp
  obtain ⟨k, hk⟩ : ∃ k, 2 * g.n = k + 2 := ⟨2 * g.n - 2, by have := h.two; omega⟩
  have p1 := preprocess_memo (g := g3) (u := v) (v := u) k hvu0 (by rw [a5]; exact iu) hnu.1 hnu.2.1 hadj.1 hsu
  have e2 : ∀ c, c ≠ u → (g3.setSide v u (some (((g3.nb u).erase v).biUnion (g3.sd u)))).side v c = g3.side v c := by
    intro c hcu
    rw [setSide_side, if_neg (fun e => hcu e.2)]
  have p2 := preprocess_memo (g := g3.setSide v u (some (((g3.nb u).erase v).biUnion (g3.sd u)))) (u := u) (v := v) k
    (by rw [setSide_side, if_neg (fun e => huv e.1)]; exact huv0) (by show g3.n ≤ v; rw [a5]; exact iv) hnv.1 hnv.2.1 hadj.2.1
    (fun c hc1 hc2 => by rw [e2 c hc2]; exact hsv c hc1 hc2)
  have e3 : (((g3.setSide v u (some (((g3.nb u).erase v).biUnion (g3.sd u)))).nb v).erase u).biUnion
      ((g3.setSide v u (some (((g3.nb u).erase v).biUnion (g3.sd u)))).sd v) = ((g3.nb v).erase u).biUnion (g3.sd v) := by
    apply Finset.biUnion_congr rfl
    intro c hcm
    exact sd_congr (e2 c (Finset.ne_of_mem_erase hcm))
  rw [e3] at p2
  -- the data of the edges
  have hs4 : ∀ x y, (g3.renew u v).side x y = if x = u ∧ y = v then some (((g3.nb v).erase u).biUnion (g3.sd v))
      else if x = v ∧ y = u then some (((g3.nb u).erase v).biUnion (g3.sd u)) else g3.side x y := fun x y => rfl
  refine ⟨hcut, ?_, ?_⟩
  · refine
      { n := a5, opn := a6, sub := a7, four := hf, hu := ⟨iu, hold.2.2.1⟩, hv := ⟨iv, hold.2.2.2.1⟩, ha := hA, hb := hB,
        nu := nu, nv := nv, nu' := nu3, nv' := nv3, n0 := ?_, n1 := ?_, no := ?_, sym := hsym, suv := ?_, svu := ?_,
        s1 := ?_, s0 := ?_, so := ?_, pu := ?_, pv := ?_, pn := ?_, p0 := ?_, p1 := ?_, po := ?_, r0 := ?_, r1 := ?_, ro := ?_ }
    · show (g3.adj C0.top).toFinset = _
      rw [b0]
      have hnd : (g.adj C0.top ++ [v]).Nodup := by
        rw [List.nodup_append']
        refine ⟨(h.nbrs s0.2.1).1, by simp, ?_⟩
        intro x hx hx'
        rw [List.mem_singleton] at hx'
        subst hx'
        exact hn0 (((h.nbrs s0.2.1).2.2 x hx).1)
      ext z
      rw [List.mem_toFinset, hnd.mem_erase_iff, List.mem_append, List.mem_singleton, Finset.mem_insert, Finset.mem_erase, mem_nb]
      constructor
      · tauto
      · rintro (rfl | h2)
        · exact ⟨huv', Or.inr rfl⟩
        · exact ⟨h2.1, Or.inl h2.2⟩
    · show (g3.adj C1.top).toFinset = _
      rw [b1]
      have hnd : (g.adj C1.top ++ [u]).Nodup := by
        rw [List.nodup_append']
        refine ⟨(h.nbrs s1.2.1).1, by simp, ?_⟩
        intro x hx hx'
        rw [List.mem_singleton] at hx'
        subst hx'
        exact hn1 (((h.nbrs s1.2.1).2.2 x hx).1)
      ext z
      rw [List.mem_toFinset, hnd.mem_erase_iff, List.mem_append, List.mem_singleton, Finset.mem_insert, Finset.mem_erase, mem_nb]
      constructor
      · tauto
      · rintro (rfl | h2)
        · exact ⟨huv, Or.inr rfl⟩
        · exact ⟨h2.1, Or.inl h2.2⟩
    · intro x e1 e2 e3 e4
      show (g3.adj x).toFinset = _
      rw [bo x e1 e2 e3 e4]
      rfl
    · rw [hs4, if_pos ⟨rfl, rfl⟩]
      congr 1
      apply Finset.biUnion_congr rfl
      intro c hcm
      refine sd_congr (Eq.symm ?_)
      rw [hs4, if_neg (fun e => huv' e.1), if_neg (fun e => (Finset.ne_of_mem_erase hcm) e.2)]
    · rw [hs4, if_neg (fun e => huv' e.1), if_pos ⟨rfl, rfl⟩]
      congr 1
      apply Finset.biUnion_congr rfl
      intro c hcm
      refine sd_congr (Eq.symm ?_)
      rw [hs4, if_neg (fun e => (Finset.ne_of_mem_erase hcm) e.2), if_neg (fun e => huv e.1)]
    · constructor
      · rw [hs4, if_neg (fun e => h1v e.2), if_neg (fun e => h1u e.2), a2]
        simp only [if_true, h1v, hcc', or_self, if_false]
      · rw [hs4, if_neg (fun e => h1u e.1), if_neg (fun e => h1v e.1), a2]
        simp only [if_true, h1v, h1u, hcc', if_false, huv]
    · constructor
      · rw [hs4, if_neg (fun e => h0v e.2), if_neg (fun e => h0u e.2), a2]
        simp only [if_true, h0u, hcc, or_self, if_false, huv']
      · rw [hs4, if_neg (fun e => h0u e.1), if_neg (fun e => h0v e.1), a2]
        simp only [if_true, h0v, h0u, if_false, huv']
    · intro x y hy hx q1 q2 q3 q4 q5 q6
      simp only [ne_eq, Prod.mk.injEq, not_and] at q1 q2 q3 q4 q5 q6
      rw [mem_nb] at hx hy
      rw [hs4, if_neg (fun e => q1 e.1 e.2), if_neg (fun e => q2 e.1 e.2), a2]
      by_cases e1 : x = u
      · subst e1
        have y1 : y ≠ C1.top := fun e => hn1 (e ▸ hy)
        simp [q1 rfl, q3 rfl, y1]
      by_cases e2 : x = v
      · subst e2
        have y1 : y ≠ C0.top := fun e => hn0 (e ▸ hy)
        simp [q2 rfl, q5 rfl, y1, huv']
      by_cases e3 : x = C0.top
      · subst e3
        have y1 : y ≠ v := by
          rintro rfl
          exact hn0 hx
        simp [h0u, h0v, q4 rfl, y1]
      by_cases e4 : x = C1.top
      · subst e4
        have y1 : y ≠ u := by
          rintro rfl
          exact hn1 hx
        simp [h1u, h1v, hcc', q6 rfl, y1]
      simp [e1, e2, e3, e4]
    · intro e
      show g3.parent u = v ∧ g3.parent v = C0.top
      rw [a3]
      simp [e, huv']
    · intro e
      have : g.parent u ≠ C0.top := by
        intro e'
        rcases edge_parent h.tree h.parents hold.2.2.1 hold.1 with e2 | e2
        · exact h0v (e'.symm.trans e2)
        · exact h1u (e.symm.trans e2)
      show g3.parent v = u ∧ g3.parent u = C1.top
      rw [a3]
      simp [e, huv', this]
    · intro e1 e2
      show g3.parent u = _ ∧ g3.parent v = _
      rw [a3]
      simp [e1, e2, huv']
    · show g3.parent C0.top = _
      rw [a3]
      simp [h0u, h0v]
    · show g3.parent C1.top = _
      rw [a3]
      simp [h1u, h1v, hcc']
    · intro x e1 e2 e3 e4
      show g3.parent x = _
      rw [a3]
      simp [e1, e2, e3, e4]
    · intro e
      show g3.root = _
      rw [a4, if_pos e]
    · intro e
      have : ¬ (g.root = (u, C0.top) ∨ g.root = (C0.top, u)) := by
        rcases e with e | e <;> rw [e] <;> simp [huv', h0v', h1u, hcc']
      show g3.root = _
      rw [a4, if_neg this, if_pos e]
    · intro e1 e2
      show g3.root = _
      rw [a4, if_neg e1, if_neg e2]
  · unfold preprocess2
    rw [hk]
    simp only [p1, p2, Option.map_some]
    rfl

/-- The costs play no part in the exchange. -/
theorem Sw.modify {g g' : Uct} {u c0 a v c1 b : Nat} (h : Sw g g' u c0 a v c1 b) (X : Nat → Option Nat) (R C : Int) :
    Sw g { g' with ncost := X, rootCost := R, cost := C } u c0 a v c1 b where
  n := h.n
  opn := h.opn
  sub := h.sub
  four := h.four
  hu := h.hu
  hv := h.hv
  ha := h.ha
  hb := h.hb
  nu := h.nu
  nv := h.nv
  nu' := h.nu'
  nv' := h.nv'
  n0 := h.n0
  n1 := h.n1
  no := h.no
  sym := h.sym
  suv := h.suv
  svu := h.svu
  s1 := h.s1
  s0 := h.s0
  so := h.so
  pu := h.pu
  pv := h.pv
  pn := h.pn
  p0 := h.p0
  p1 := h.p1
  po := h.po
  r0 := h.r0
  r1 := h.r1
  ro := h.ro

theorem renew_eq (g3 : Uct) (u v : Nat) : (g3.renew u v).ncost = g3.ncost ∧ (g3.renew u v).cost = g3.cost ∧
    (g3.renew u v).rootCost = g3.rootCost ∧ (g3.renew u v).stem = g3.stem ∧ (g3.renew u v).n = g3.n := ⟨rfl, rfl, rfl, rfl, rfl⟩

/-- The invariant after an exchange, given the costs. -/
theorem Sw.inv {g g' : Uct} {u c0 a v c1 b : Nat} (h : Sw g g' u c0 a v c1 b) (hi : g.Inv)
    (hcut : ∃ Tu Tv, Cut g.n g'.adj u v Tu Tv) (hnu : g'.ncost u = some (g'.vcost u)) (hnv : g'.ncost v = some (g'.vcost v))
    (hno : ∀ y, y ≠ u → y ≠ v → g'.ncost y = g.ncost y) (hr : g'.rootCost = g'.rcost) (ht : g'.Total) : g'.Inv := by
  obtain ⟨Tu, Tv, hcut⟩ := hcut
  have he : ∀ x, x < 2 * g.n - 2 → ∀ y ∈ g.nb x, g.parent x = y ∨ g.parent y = x :=
    fun x hx y hy => edge_parent hi.tree hi.parents hx (mem_nb.1 hy)
  have hp := h.parents hi.parents he
  have hsym : ∀ x, x < 2 * g.n - 2 → ∀ y ∈ g'.nb x, x ∈ g'.nb y ∧ y < 2 * g.n - 2 := by
    intro x hx y hy
    rw [mem_nb] at hy
    rw [mem_nb]
    exact ⟨((hcut.nbrs hx).2.2 y hy).1, ((hcut.nbrs hx).2.2 y hy).2.1⟩
  refine ⟨by rw [h.n]; exact hi.two, ?_, h.sides hi.sides hsym, hp, ?_, hr, ht⟩
  · have h1 : g'.root.1 < 2 * g.n - 2 := by
      by_cases h0 : g.root = (u, c0) ∨ g.root = (c0, u)
      · rw [h.r0 h0]; exact h.hv.2
      by_cases h1 : g.root = (v, c1) ∨ g.root = (c1, v)
      · rw [h.r1 h1]; exact h.hu.2
      rw [h.ro h0 h1]
      obtain ⟨_, _, hc⟩ := hi.tree
      exact hc.adjacent.2.2.1
    unfold Tree
    rw [h.n]
    refine hcut.move h1 ?_
    have := hp.mem g'.root.1 (by rw [h.n]; exact h1)
    rwa [hp.root.1] at this
  · intro y h1 h2
    rw [h.n] at h1 h2
    by_cases hu : y = u
    · subst hu; exact hnu
    by_cases hv : y = v
    · subst hv; exact hnv
    rw [hno y hu hv, hi.node y h1 h2, h.vcost_o hi.parents h2 hu hv]

/-- `switch_edges` keeps the invariant. -/
theorem Inv.switch {g : Uct} (h : g.Inv) {u c0 v c1 : Nat} (hu : u < 2 * g.n - 2) (h0 : c0 ∈ g.adj u) (hv : v ∈ g.adj u)
    (h1 : c1 ∈ g.adj v) (n0 : c0 ≠ v) (n1 : c1 ≠ u) :
    ∃ g' a b, g.switchEdges u c0 v c1 = some g' ∧ g'.Inv ∧ Sw g g' u c0 a v c1 b ∧ g'.stem = g.stem := by
  obtain ⟨C0, A, C1, B, rfl, rfl, hc⟩ := h.around hu h0 hv h1 n0 n1
  obtain ⟨hcut, hsw, hpre⟩ := h.exchange hc
  obtain ⟨-, -, -, -, a5, -, -, a8, a9, a10, a11⟩ := mid_spec (Inv.four hc).1
  have hsw0 : g.switchEdges u C0.top v C1.top = match preprocess2 (2 * g.n) (g.mid u C0.top v C1.top) (v, u) with
    | none => none
    | some g4 =>
      match g4.computeNodeCost v with
      | none => none
      | some g5 =>
        match g5.computeNodeCost u with
        | none => none
        | some g6 => some (if g6.root = (u, v) ∨ g6.root = (v, u) then g6.computeRootCost else g6) := by
    unfold switchEdges
    rw [if_neg (not_not.2 ⟨h0, hv, h1⟩)]
    rfl
  rw [hsw0, hpre]
  obtain ⟨r1, r2, r3, r4, r5⟩ := renew_eq (g.mid u C0.top v C1.top) u v
  rw [a8] at r1
  rw [a10] at r2
  rw [a9] at r3
  rw [a11] at r4
  rw [a5] at r5
  clear a5 a8 a9 a10 a11 hsw0 hpre
  generalize (g.mid u C0.top v C1.top).renew u v = g4 at hcut hsw r1 r2 r3 r4 r5 ⊢
  have ht4 : g4.Total := by
    have := h.total
    unfold Total at this ⊢
    rw [r1, r2, r3, r5]
    exact this
  have hadj := hcut.adjacent
  have hnu := hcut.nbrs hadj.2.2.1
  have hnv := hcut.nbrs hadj.2.2.2.1
  rw [if_neg (Nat.not_lt.2 hsw.hu.1)] at hnu
  rw [if_neg (Nat.not_lt.2 hsw.hv.1)] at hnv
  have he : ∀ x, x < 2 * g.n - 2 → ∀ y ∈ g.nb x, g.parent x = y ∨ g.parent y = x :=
    fun x hx y hy => edge_parent h.tree h.parents hx (mem_nb.1 hy)
  have hp := hsw.parents h.parents he
  have c1 := computeNodeCost_eq hnv.1 hnv.2.1 (hp.mem v (by rw [r5]; exact hsw.hv.2))
  have t1 := total_node ht4 (by rw [r5]; exact hsw.hv.1) (by rw [r5]; exact hsw.hv.2) c1
  have c2 := computeNodeCost_eq (g := { g4 with cost := g4.cost - ((g4.ncost v).getD 0 : Nat) + g4.vcost v, ncost := put g4.ncost v (some (g4.vcost v)) })
    (v := u) hnu.1 hnu.2.1 (hp.mem u (by rw [r5]; exact hsw.hu.2))
  have t2 := total_node t1 (by show g4.n ≤ u; rw [r5]; exact hsw.hu.1) (by show u < 2 * g4.n - 2; rw [r5]; exact hsw.hu.2) c2
  simp only [c1, c2, Option.some.injEq]
  have huv := hsw.four.uv
  have x1 : put (put g4.ncost v (some (g4.vcost v))) u (some (g4.vcost u)) u = some (g4.vcost u) := put_same _ _ _
  have x2 : put (put g4.ncost v (some (g4.vcost v))) u (some (g4.vcost u)) v = some (g4.vcost v) := by
    rw [put_ne huv.symm, put_same]
  have x3 : ∀ y, y ≠ u → y ≠ v → put (put g4.ncost v (some (g4.vcost v))) u (some (g4.vcost u)) y = g.ncost y := by
    intro y e1 e2
    rw [put_ne e1, put_ne e2, r1]
  obtain ⟨_, _, hc'⟩ := h.tree
  have hroot := hc'.adjacent
  refine ⟨_, A.top, B.top, rfl, ?_⟩
  split
  · rename_i hr
    exact ⟨(hsw.modify _ _ _).inv h ⟨_, _, hcut⟩ x1 x2 x3 rfl (total_root t2), hsw.modify _ _ _, r4⟩
  · rename_i hr
    refine ⟨(hsw.modify _ _ _).inv h ⟨_, _, hcut⟩ x1 x2 x3 ?_ t2, hsw.modify _ _ _, r4⟩
    show g4.rootCost = g4.rcost
    rw [r3, h.root, hsw.rcost_o ⟨mem_nb.2 hroot.1, mem_nb.2 hroot.2.1⟩ hr]

/-- `step_root` keeps the invariant. -/
theorem Inv.step {g : Uct} (h : g.Inv) {u v : Nat} (hr : u = g.root.1 ∨ u = g.root.2) (hu : g.n ≤ u) (hv : v ∈ g.adj u) :
    ∃ g', g.stepRoot u v = some g' ∧ g'.Inv ∧ g'.root = (u, v) ∧ g'.n = g.n ∧ g'.opn = g.opn ∧ g'.sub = g.sub ∧
      g'.stem = g.stem ∧ g'.adj = g.adj := by
  obtain ⟨Tu, Tv, hc⟩ := h.tree
  have hroot := hc.adjacent
  have hlt : u < 2 * g.n - 2 := by
    rcases hr with rfl | rfl
    · exact hroot.2.2.1
    · exact hroot.2.2.2.1
  have hnb := h.nbrs hlt
  rw [if_neg (Nat.not_lt.2 hu)] at hnb
  have hvn := hnb.2.2 v hv
  have hpu : g.parent u = g.root.1 ∨ g.parent u = g.root.2 := by
    rcases hr with rfl | rfl
    · exact Or.inr h.parents.root.1
    · exact Or.inl h.parents.root.2
  have hpp : g.parent (g.parent u) = u := by
    rcases hr with rfl | rfl
    · rw [h.parents.root.1, h.parents.root.2]
    · rw [h.parents.root.2, h.parents.root.1]
  have hpv : g.parent v = u := by
    rcases edge_parent h.tree h.parents hlt hv with e | e
    · rw [← e, hpp]
    · exact e
  let g1 : Uct := { g with root := (u, v), parent := put g.parent u v }
  have c1 := computeNodeCost_eq (g := g1) (v := u) hnb.1 hnb.2.1 (by show put g.parent u v u ∈ _; rw [put_same]; exact hv)
  have ht : g1.Total := h.total
  have t1 := total_node ht hu hlt c1
  unfold stepRoot
  rw [if_neg (by push Not; intro e; rcases hr with hr | hr; exacts [absurd hr e, hr])]
  rw [show g1.computeNodeCost u = _ from c1]
  refine ⟨_, rfl, ⟨h.two, hc.move hlt hv, ⟨h.sides.some, h.sides.leaf, h.sides.node⟩, ⟨?_, ?_, ?_⟩, ?_, rfl, total_root t1⟩,
    rfl, rfl, rfl, rfl, rfl, rfl⟩
  · intro x hx
    show put g.parent u v x ∈ g.adj x
    by_cases e : x = u
    · subst e; rw [put_same]; exact hv
    · rw [put_ne e]; exact h.parents.mem x hx
  · show put g.parent u v u = v ∧ put g.parent u v v = u
    exact ⟨put_same _ _ _, by rw [put_ne hvn.2.2, hpv]⟩
  · intro x hx hm
    change put g.parent u v (put g.parent u v x) = x at hm
    show (u, v) = (x, put g.parent u v x) ∨ (u, v) = (put g.parent u v x, x)
    by_cases e : x = u
    · subst e
      left
      rw [put_same]
    · rw [put_ne e] at hm ⊢
      by_cases e2 : g.parent x = u
      · right
        rw [e2, put_same] at hm
        rw [e2, hm]
      · rw [put_ne e2] at hm
        exfalso
        rcases h.parents.uniq x hx hm with q | q <;> rw [q] at hr
        · rcases hr with hr | hr
          · exact e hr.symm
          · exact e2 hr.symm
        · rcases hr with hr | hr
          · exact e2 hr.symm
          · exact e hr.symm
  · intro y h1 h2
    show put g.ncost u (some (g1.vcost u)) y = some (g1.vcost y)
    by_cases e : y = u
    · subst e; rw [put_same]
    · rw [put_ne e, h.node y h1 h2]
      congr 1
      show stepCost (((g.nb y).erase (g.parent y)).biUnion (g.openAt y)) ∅ (g.openAt (g.parent y) y) =
        stepCost (((g.nb y).erase (put g.parent u v y)).biUnion (g.openAt y)) ∅ (g.openAt (put g.parent u v y) y)
      rw [put_ne e]

end Uct

end Verif
