import Verif.Lemmas.UctSwitch
/-!
# `UndirectedContractionTree`: exchanging two branches keeps the invariant
-/

namespace Verif

open UT

/-- Where the parent does not lead out of a part of the tree, two vertices inside are parents of each other. -/
theorem UT.mutual {n : Nat} {adj : Nat → List Nat} {parent : Nat → Nat} {p : Nat} {T : UT} (h : Shape n adj p T)
    (hm : ∀ x ∈ T.labels, parent x ∈ adj x) (hp : parent T.top ≠ p) :
    ∃ x ∈ T.labels, parent x ∈ T.labels ∧ parent (parent x) = x := by
  induction T generalizing p with
  | leaf v =>
    have := hm v (by simp [labels])
    rw [h.2, List.mem_singleton] at this
    exact absurd this hp
  | node v l r ihl ihr =>
    have h1 := h.2.1.subset (hm v (by simp [labels]))
    simp only [List.mem_cons, List.not_mem_nil, or_false] at h1
    have hml : ∀ x ∈ l.labels, parent x ∈ adj x := fun x hx => hm x (by simp [labels, hx])
    have hmr : ∀ x ∈ r.labels, parent x ∈ adj x := fun x hx => hm x (by simp [labels, hx])
    rcases h1 with h1 | h1 | h1
    · exact absurd h1 hp
    · by_cases h2 : parent l.top = v
      · exact ⟨v, by simp [labels], by rw [h1]; simp [labels, l.top_mem], by rw [h1, h2]⟩
      · obtain ⟨x, a1, a2, a3⟩ := ihl h.2.2.1 hml h2
        exact ⟨x, by simp [labels, a1], by simp [labels, a2], a3⟩
    · by_cases h2 : parent r.top = v
      · exact ⟨v, by simp [labels], by rw [h1]; simp [labels, r.top_mem], by rw [h1, h2]⟩
      · obtain ⟨x, a1, a2, a3⟩ := ihr h.2.2.2 hmr h2
        exact ⟨x, by simp [labels, a1], by simp [labels, a2], a3⟩

namespace Uct

/-- Along every edge one of the ends is the parent of the other. -/
theorem edge_parent {g : Uct} (ht : g.Tree) (hp : g.Parents) {x y : Nat} (hx : x < 2 * g.n - 2) (hy : y ∈ g.adj x) :
    g.parent x = y ∨ g.parent y = x := by
  obtain ⟨Tu, Tv, hc⟩ := ht
  obtain ⟨Tx, Ty, hxy⟩ := hc.move hx hy
  by_contra hn
  push Not at hn
  have m1 : ∀ z ∈ Tx.labels, g.parent z ∈ g.adj z := fun z hz => hp.mem z (hxy.mem.2 (Or.inl hz))
  have m2 : ∀ z ∈ Ty.labels, g.parent z ∈ g.adj z := fun z hz => hp.mem z (hxy.mem.2 (Or.inr hz))
  obtain ⟨z, a1, a2, a3⟩ := UT.mutual hxy.su m1 (by rw [hxy.tu]; exact hn.1)
  obtain ⟨w, b1, b2, b3⟩ := UT.mutual hxy.sv m2 (by rw [hxy.tv]; exact hn.2)
  have hd := List.disjoint_of_nodup_append hxy.nodup
  have c1 : g.root.1 ∈ Tx.labels := by
    rcases hp.uniq z (hxy.mem.2 (Or.inl a1)) a3 with h | h <;> rw [h] <;> assumption
  have c2 : g.root.1 ∈ Ty.labels := by
    rcases hp.uniq w (hxy.mem.2 (Or.inr b1)) b3 with h | h <;> rw [h] <;> assumption
  exact hd c1 c2

/-- How a tree changes when the branches `c0` at `u` and `c1` at `v` are exchanged. -/
structure Sw (g g' : Uct) (u c0 a v c1 b : Nat) : Prop where
  n : g'.n = g.n
  opn : g'.opn = g.opn
  sub : g'.sub = g.sub
  four : g.Four u c0 v c1
  hu : g.n ≤ u ∧ u < 2 * g.n - 2
  hv : g.n ≤ v ∧ v < 2 * g.n - 2
  ha : a ≠ u ∧ a ≠ v ∧ a ≠ c0 ∧ a ≠ c1
  hb : b ≠ u ∧ b ≠ v ∧ b ≠ c0 ∧ b ≠ c1
  nu : g.nb u = {v, c0, a}
  nv : g.nb v = {u, c1, b}
  nu' : g'.nb u = {v, c1, a}
  nv' : g'.nb v = {u, c0, b}
  n0 : g'.nb c0 = insert v ((g.nb c0).erase u)
  n1 : g'.nb c1 = insert u ((g.nb c1).erase v)
  no : ∀ x, x ≠ u → x ≠ v → x ≠ c0 → x ≠ c1 → g'.nb x = g.nb x
  sym : ∀ x, x < 2 * g.n - 2 → ∀ y ∈ g.nb x, x ∈ g.nb y ∧ y < 2 * g.n - 2 ∧ y ≠ x
  suv : g'.side u v = some (((g'.nb v).erase u).biUnion (g'.sd v))
  svu : g'.side v u = some (((g'.nb u).erase v).biUnion (g'.sd u))
  s1 : g'.side u c1 = g.side v c1 ∧ g'.side c1 u = g.side c1 v
  s0 : g'.side v c0 = g.side u c0 ∧ g'.side c0 v = g.side c0 u
  so : ∀ x y, y ∈ g.nb x → x ∈ g.nb y → (x, y) ≠ (u, v) → (x, y) ≠ (v, u) → (x, y) ≠ (u, c0) → (x, y) ≠ (c0, u) →
    (x, y) ≠ (v, c1) → (x, y) ≠ (c1, v) → g'.side x y = g.side x y
  pu : g.parent u = c0 → g'.parent u = v ∧ g'.parent v = c0
  pv : g.parent v = c1 → g'.parent v = u ∧ g'.parent u = c1
  pn : g.parent u ≠ c0 → g.parent v ≠ c1 → g'.parent u = g.parent u ∧ g'.parent v = g.parent v
  p0 : g'.parent c0 = if g.parent c0 = u then v else g.parent c0
  p1 : g'.parent c1 = if g.parent c1 = v then u else g.parent c1
  po : ∀ x, x ≠ u → x ≠ v → x ≠ c0 → x ≠ c1 → g'.parent x = g.parent x
  r0 : g.root = (u, c0) ∨ g.root = (c0, u) → g'.root = (v, c0)
  r1 : g.root = (v, c1) ∨ g.root = (c1, v) → g'.root = (u, c1)
  ro : ¬ (g.root = (u, c0) ∨ g.root = (c0, u)) → ¬ (g.root = (v, c1) ∨ g.root = (c1, v)) → g'.root = g.root

namespace Sw

variable {g g' : Uct} {u c0 a v c1 b : Nat}

theorem symm (h : Sw g g' u c0 a v c1 b) : Sw g g' v c1 b u c0 a where
  n := h.n
  opn := h.opn
  sub := h.sub
  four := ⟨h.four.uv.symm, h.four.c1v, h.four.c1u, h.four.c0v, h.four.c0u, h.four.cc.symm, h.four.nc1, h.four.nc0⟩
  hu := h.hv
  hv := h.hu
  ha := ⟨h.hb.2.1, h.hb.1, h.hb.2.2.2, h.hb.2.2.1⟩
  hb := ⟨h.ha.2.1, h.ha.1, h.ha.2.2.2, h.ha.2.2.1⟩
  nu := h.nv
  nv := h.nu
  nu' := h.nv'
  nv' := h.nu'
  n0 := h.n1
  n1 := h.n0
  no x a b c d := h.no x b a d c
  sym := h.sym
  suv := h.svu
  svu := h.suv
  s1 := h.s0
  s0 := h.s1
  so x y a1 a2 a3 a4 a5 a6 a7 a8 := h.so x y a1 a2 a4 a3 a7 a8 a5 a6
  pu := h.pv
  pv := h.pu
  pn a b := (h.pn b a).symm
  p0 := h.p1
  p1 := h.p0
  po x a b c d := h.po x b a d c
  r0 := h.r1
  r1 := h.r0
  ro a b := h.ro b a

theorem a_mem (h : Sw g g' u c0 a v c1 b) : a ∈ g.nb u ∧ u ∈ g.nb a := by
  have : a ∈ g.nb u := by rw [h.nu]; simp
  exact ⟨this, (h.sym u h.hu.2 a this).1⟩

theorem ends (h : Sw g g' u c0 a v c1 b) : c0 < 2 * g.n - 2 ∧ u ∈ g.nb c0 ∧ c0 ∈ g.nb u ∧ v ∈ g.nb u ∧ v ∉ g.nb c0 := by
  have h0 : c0 ∈ g.nb u := by rw [h.nu]; simp
  have h1 := h.sym u h.hu.2 c0 h0
  refine ⟨h1.2.1, h1.1, h0, by rw [h.nu]; simp, fun hc => ?_⟩
  exact h.four.nc0 (mem_nb.1 (h.sym c0 h1.2.1 v hc).1)

theorem sd_a (h : Sw g g' u c0 a v c1 b) : g'.side u a = g.side u a ∧ g'.side a u = g.side a u := by
  have ha := h.ha
  have hf := h.four
  have hm := h.a_mem
  have := hf.uv
  constructor
  · refine h.so u a hm.1 hm.2 ?_ ?_ ?_ ?_ ?_ ?_ <;> simp only [ne_eq, Prod.mk.injEq, not_and] <;> (intro h1 h2; simp_all)
  · refine h.so a u hm.2 hm.1 ?_ ?_ ?_ ?_ ?_ ?_ <;> simp only [ne_eq, Prod.mk.injEq, not_and] <;> (intro h1 h2; simp_all)

theorem sd_c0 (h : Sw g g' u c0 a v c1 b) {y : Nat} (hy : y ∈ g.nb c0) (hyu : y ≠ u) :
    g'.side c0 y = g.side c0 y ∧ g'.side y c0 = g.side y c0 := by
  have hf := h.four
  have he := h.ends
  have hs := (h.sym c0 he.1 y hy).1
  have hyv : y ≠ v := fun e => he.2.2.2.2 (e ▸ hy)
  have h1 := hf.c0u
  have h2 := hf.c0v
  have h3 := hf.cc
  constructor
  · refine h.so c0 y hy hs ?_ ?_ ?_ ?_ ?_ ?_ <;> simp only [ne_eq, Prod.mk.injEq, not_and] <;> (intro h1 h2; simp_all)
  · refine h.so y c0 hs hy ?_ ?_ ?_ ?_ ?_ ?_ <;> simp only [ne_eq, Prod.mk.injEq, not_and] <;> (intro h1 h2; simp_all)

theorem sd_o (h : Sw g g' u c0 a v c1 b) {x y : Nat} (hx : y ∈ g.nb x) (hy : x ∈ g.nb y) (h1 : x ≠ u) (h2 : x ≠ v) (h3 : x ≠ c0)
    (h4 : x ≠ c1) : g'.side x y = g.side x y ∧ g'.side y x = g.side y x := by
  constructor
  · refine h.so x y hx hy ?_ ?_ ?_ ?_ ?_ ?_ <;> simp only [ne_eq, Prod.mk.injEq, not_and] <;> (intro h1 h2; simp_all)
  · refine h.so y x hy hx ?_ ?_ ?_ ?_ ?_ ?_ <;> simp only [ne_eq, Prod.mk.injEq, not_and] <;> (intro h1 h2; simp_all)

theorem three1 {f : Nat → Finset Nat} {p q r : Nat} (h1 : p ≠ q) (h2 : p ≠ r) : ((({p, q, r} : Finset Nat)).erase p).biUnion f = f q ∪ f r := by
  rw [Finset.erase_insert (by simp [h1, h2]), Finset.biUnion_insert, Finset.singleton_biUnion]

theorem three2 {f : Nat → Finset Nat} {p q r : Nat} (h1 : q ≠ p) (h2 : q ≠ r) : ((({p, q, r} : Finset Nat)).erase q).biUnion f = f p ∪ f r := by
  rw [Finset.insert_comm, three1 h1 h2]

theorem three3 {f : Nat → Finset Nat} {p q r : Nat} (h1 : r ≠ p) (h2 : r ≠ q) : ((({p, q, r} : Finset Nat)).erase r).biUnion f = f p ∪ f q := by
  rw [show ({p, q, r} : Finset Nat) = {r, p, q} by ext x; simp; tauto, three1 h1 h2]

theorem sd_uv (h : Sw g g' u c0 a v c1 b) : g'.sd u v = g.sd u c0 ∪ g.sd v b := by
  unfold sd
  rw [h.suv, h.nv', Option.getD_some, three1 h.four.c0u.symm h.hb.1.symm]
  unfold sd
  rw [h.s0.1, h.symm.sd_a.1]

/-- Beyond `u`. -/
theorem node_u (h : Sw g g' u c0 a v c1 b) (hs : g.Sides) {x : Nat} (hx : x ∈ g'.nb u) :
    g'.sd x u = ((g'.nb u).erase x).biUnion (g'.sd u) := by
  have hf := h.four
  have e1 : g.sd v u = g.sd u c0 ∪ g.sd u a := by
    rw [hs.node v u h.hv.2 (mem_nb.1 (by rw [h.nv]; simp)) h.hu.1, h.nu, three1 hf.c0v.symm h.ha.2.1.symm]
  have e2 : g.sd u v = g.sd v c1 ∪ g.sd v b := by
    rw [hs.node u v h.hu.2 (mem_nb.1 (by rw [h.nu]; simp)) h.hv.1, h.nv, three1 hf.c1u.symm h.hb.1.symm]
  have e3 := h.sd_uv
  have e4 : g'.sd u a = g.sd u a := by unfold sd; rw [h.sd_a.1]
  have e5 : g'.sd u c1 = g.sd v c1 := by unfold sd; rw [h.s1.1]
  rw [h.nu', Finset.mem_insert, Finset.mem_insert, Finset.mem_singleton] at hx
  rcases hx with rfl | rfl | rfl
  · show (g'.side x u).getD ∅ = _
    rw [h.svu, Option.getD_some]
  · rw [h.nu', three2 hf.c1v h.ha.2.2.2.symm, e3, e4]
    have : g'.sd x u = g.sd x v := by unfold sd; rw [h.s1.2]
    rw [this, hs.node x v h.symm.ends.1 (mem_nb.1 h.symm.ends.2.1) h.hv.1, h.nv, three2 hf.c1u h.hb.2.2.2.symm, e1]
    ext z
    simp only [Finset.mem_union]
    tauto
  · rw [h.nu', three3 h.ha.2.1 h.ha.2.2.2, e3, e5]
    have : g'.sd x u = g.sd x u := by unfold sd; rw [h.sd_a.2]
    rw [this, hs.node x u (h.sym u h.hu.2 x h.a_mem.1).2.1 (mem_nb.1 h.a_mem.2) h.hu.1, h.nu, three3 h.ha.2.1 h.ha.2.2.1, e2]
    ext z
    simp only [Finset.mem_union]
    tauto

/-- What hangs at `c0` apart from `x`, for a function that has at `v` the value it had at `u`. -/
theorem beyond_c0 (h : Sw g g' u c0 a v c1 b) {f f' : Nat → Finset Nat} (hu : f' v = f u) (hf : ∀ y ∈ g.nb c0, y ≠ u → f' y = f y) :
    ((g'.nb c0).erase v).biUnion f' = ((g.nb c0).erase u).biUnion f ∧
    ∀ x ∈ g.nb c0, x ≠ u → ((g'.nb c0).erase x).biUnion f' = ((g.nb c0).erase x).biUnion f := by
  have he := h.ends
  constructor
  · rw [h.n0, Finset.erase_insert (fun hc => he.2.2.2.2 (Finset.mem_of_mem_erase hc))]
    apply Finset.biUnion_congr rfl
    intro y hy
    exact hf y (Finset.mem_of_mem_erase hy) (Finset.ne_of_mem_erase hy)
  · intro x hx hxu
    have hxv : x ≠ v := fun e => he.2.2.2.2 (e ▸ hx)
    ext z
    simp only [h.n0, Finset.mem_biUnion, Finset.mem_erase, Finset.mem_insert]
    constructor
    · rintro ⟨y, ⟨h1, rfl | ⟨h2, h3⟩⟩, h4⟩
      · exact ⟨u, ⟨hxu.symm, he.2.1⟩, hu ▸ h4⟩
      · exact ⟨y, ⟨h1, h3⟩, hf y h3 h2 ▸ h4⟩
    · rintro ⟨y, ⟨h1, h2⟩, h4⟩
      by_cases h5 : y = u
      · subst h5
        exact ⟨v, ⟨hxv.symm, Or.inl rfl⟩, hu ▸ h4⟩
      · exact ⟨y, ⟨h1, Or.inr ⟨h5, h2⟩⟩, (hf y h2 h5).symm ▸ h4⟩

theorem node_c0 (h : Sw g g' u c0 a v c1 b) (hs : g.Sides) {x : Nat} (hn : g.n ≤ c0) (hx : x ∈ g'.nb c0) :
    g'.sd x c0 = ((g'.nb c0).erase x).biUnion (g'.sd c0) := by
  have he := h.ends
  have hb := h.beyond_c0 (f := g.sd c0) (f' := g'.sd c0) (by unfold sd; rw [h.s0.2]) (fun y h1 h2 => by unfold sd; rw [(h.sd_c0 h1 h2).1])
  rw [h.n0, Finset.mem_insert, Finset.mem_erase] at hx
  rcases hx with rfl | ⟨h1, h2⟩
  · rw [hb.1, ← hs.node u c0 h.hu.2 (mem_nb.1 he.2.2.1) hn]
    unfold sd
    rw [h.s0.1]
  · have h3 := h.sym c0 he.1 x h2
    rw [hb.2 x h2 h1, ← hs.node x c0 h3.2.1 (mem_nb.1 h3.1) hn]
    unfold sd
    rw [(h.sd_c0 h2 h1).2]

/-- The neighbours afterwards. -/
theorem sym' (h : Sw g g' u c0 a v c1 b) {x y : Nat} (hx : x < 2 * g.n - 2) (hy : y ∈ g'.nb x) (h1 : x ≠ u) (h2 : x ≠ v) (h3 : y ≠ u)
    (h4 : y ≠ v) : y ∈ g.nb x ∧ x ∈ g.nb y := by
  have : y ∈ g.nb x := by
    by_cases e0 : x = c0
    · subst e0
      rw [h.n0, Finset.mem_insert, Finset.mem_erase] at hy
      rcases hy with rfl | hy
      · exact absurd rfl h4
      · exact hy.2
    · by_cases e1 : x = c1
      · subst e1
        rw [h.n1, Finset.mem_insert, Finset.mem_erase] at hy
        rcases hy with rfl | hy
        · exact absurd rfl h3
        · exact hy.2
      · rwa [h.no x h1 h2 e0 e1] at hy
  exact ⟨this, (h.sym x hx y this).1⟩

theorem sides (h : Sw g g' u c0 a v c1 b) (hs : g.Sides) (hsym : ∀ x, x < 2 * g.n - 2 → ∀ y ∈ g'.nb x, x ∈ g'.nb y ∧ y < 2 * g.n - 2) :
    g'.Sides := by
  have keyu : ∀ {u c0 a v c1 b : Nat}, Sw g g' u c0 a v c1 b → ∀ y ∈ g'.nb u, (g'.side u y).isSome := by
    intro u c0 a v c1 b h y hy
    rw [h.nu', Finset.mem_insert, Finset.mem_insert, Finset.mem_singleton] at hy
    rcases hy with rfl | rfl | rfl
    · rw [h.suv]; rfl
    · rw [h.s1.1]
      exact hs.some v y h.hv.2 (mem_nb.1 h.symm.ends.2.2.1)
    · rw [h.sd_a.1]
      exact hs.some u y h.hu.2 (mem_nb.1 h.a_mem.1)
  have key0 : ∀ {u c0 a v c1 b : Nat}, Sw g g' u c0 a v c1 b → ∀ y ∈ g'.nb c0, (g'.side c0 y).isSome := by
    intro u c0 a v c1 b h y hy
    have he := h.ends
    rw [h.n0, Finset.mem_insert, Finset.mem_erase] at hy
    rcases hy with rfl | ⟨h1, h2⟩
    · rw [h.s0.2]
      exact hs.some c0 u he.1 (mem_nb.1 he.2.1)
    · rw [(h.sd_c0 h2 h1).1]
      exact hs.some c0 y he.1 (mem_nb.1 h2)
  have leaf : ∀ {u c0 a v c1 b : Nat}, Sw g g' u c0 a v c1 b → ∀ x ∈ g'.nb c0, c0 < g.n → g'.sd x c0 = g.sub c0 := by
    intro u c0 a v c1 b h x hx hn
    have he := h.ends
    rw [h.n0, Finset.mem_insert, Finset.mem_erase] at hx
    rcases hx with rfl | ⟨h1, h2⟩
    · have := hs.leaf u c0 h.hu.2 (mem_nb.1 he.2.2.1) hn
      unfold sd at this ⊢
      rw [h.s0.1, this]
    · have h3 := h.sym c0 he.1 x h2
      have := hs.leaf x c0 h3.2.1 (mem_nb.1 h3.1) hn
      unfold sd at this ⊢
      rw [(h.sd_c0 h2 h1).2, this]
  constructor
  · intro x y hx hy
    rw [h.n] at hx
    rw [← mem_nb] at hy
    by_cases hu : x = u
    · subst hu; exact keyu h y hy
    by_cases hv : x = v
    · subst hv; exact keyu h.symm y hy
    by_cases h0 : x = c0
    · subst h0; exact key0 h y hy
    by_cases h1 : x = c1
    · subst h1; exact key0 h.symm y hy
    rw [h.no x hu hv h0 h1] at hy
    rw [(h.sd_o hy (h.sym x hx y hy).1 hu hv h0 h1).1]
    exact hs.some x y hx (mem_nb.1 hy)
  · intro x y hx hy hn
    rw [h.n] at hx hn
    rw [← mem_nb] at hy
    have hy' := (hsym x hx y hy).1
    rw [h.sub]
    by_cases h0 : y = c0
    · subst h0; exact leaf h x hy' hn
    by_cases h1 : y = c1
    · subst h1; exact leaf h.symm x hy' hn
    have hu : y ≠ u := by have := h.hu.1; omega
    have hv : y ≠ v := by have := h.hv.1; omega
    rw [h.no y hu hv h0 h1] at hy'
    have h3 := h.sym y (hsym x hx y hy).2 x hy'
    have := hs.leaf x y hx (mem_nb.1 h3.1) hn
    unfold sd at this ⊢
    rw [(h.sd_o hy' h3.1 hu hv h0 h1).2, this]
  · intro x y hx hy hn
    rw [h.n] at hx hn
    rw [← mem_nb] at hy
    have hy' := (hsym x hx y hy).1
    by_cases hu : y = u
    · subst hu; exact h.node_u hs hy'
    by_cases hv : y = v
    · subst hv; exact h.symm.node_u hs hy'
    by_cases h0 : y = c0
    · subst h0; exact h.node_c0 hs hn hy'
    by_cases h1 : y = c1
    · subst h1; exact h.symm.node_c0 hs hn hy'
    rw [h.no y hu hv h0 h1] at hy' ⊢
    have hyn := (hsym x hx y hy).2
    have h3 := h.sym y hyn x hy'
    have e1 : g'.sd x y = g.sd x y := by
      unfold sd
      rw [(h.sd_o hy' h3.1 hu hv h0 h1).2]
    rw [e1, hs.node x y hx (mem_nb.1 h3.1) hn]
    apply Finset.biUnion_congr rfl
    intro z hz
    have hz' := Finset.mem_of_mem_erase hz
    unfold sd
    rw [(h.sd_o hz' (h.sym y hyn z hz').1 hu hv h0 h1).1]

/-- What is open at the edges. -/
theorem open_o (h : Sw g g' u c0 a v c1 b) {x y : Nat} (h1 : g'.side x y = g.side x y) (h2 : g'.side y x = g.side y x) :
    g'.openAt x y = g.openAt x y := by
  unfold openAt
  rw [h1, h2, h.n, h.opn]

theorem open_c0 (h : Sw g g' u c0 a v c1 b) : g'.openAt v c0 = g.openAt u c0 ∧ g'.openAt c0 v = g.openAt c0 u := by
  unfold openAt
  rw [h.s0.1, h.s0.2, h.n, h.opn]
  refine ⟨rfl, ?_⟩
  rw [if_neg (Nat.not_lt.2 h.hv.1), if_neg (Nat.not_lt.2 h.hu.1)]

theorem vcost_c0 (h : Sw g g' u c0 a v c1 b) (hp : g.Parents) : g'.vcost c0 = g.vcost c0 := by
  have he := h.ends
  have hb := h.beyond_c0 (f := g.openAt c0) (f' := g'.openAt c0) h.open_c0.2
    (fun y h1 h2 => h.open_o (h.sd_c0 h1 h2).1 (h.sd_c0 h1 h2).2)
  unfold vcost
  rw [h.p0]
  by_cases h1 : g.parent c0 = u
  · rw [if_pos h1, hb.1, h.open_c0.1, h1]
  · rw [if_neg h1]
    have h2 := mem_nb.2 (hp.mem c0 he.1)
    rw [hb.2 _ h2 h1, h.open_o (h.sd_c0 h2 h1).2 (h.sd_c0 h2 h1).1]

theorem vcost_o (h : Sw g g' u c0 a v c1 b) (hp : g.Parents) {y : Nat} (hy : y < 2 * g.n - 2) (hu : y ≠ u) (hv : y ≠ v) :
    g'.vcost y = g.vcost y := by
  by_cases h0 : y = c0
  · subst h0; exact h.vcost_c0 hp
  by_cases h1 : y = c1
  · subst h1; exact h.symm.vcost_c0 hp
  unfold vcost
  have hm := mem_nb.2 (hp.mem y hy)
  have hs := h.sd_o hm (h.sym y hy _ hm).1 hu hv h0 h1
  rw [h.po y hu hv h0 h1, h.no y hu hv h0 h1, h.open_o hs.2 hs.1]
  congr 1
  apply Finset.biUnion_congr rfl
  intro z hz
  have hz' := Finset.mem_of_mem_erase hz
  have hs' := h.sd_o hz' (h.sym y hy _ hz').1 hu hv h0 h1
  exact h.open_o hs'.1 hs'.2

theorem stepCost_comm (s t r : Finset Nat) : stepCost s t r = stepCost t s r := by
  unfold stepCost
  rw [Finset.union_comm s t]

theorem rcost_c0 (h : Sw g g' u c0 a v c1 b) (hr : g.root = (u, c0) ∨ g.root = (c0, u)) : g'.rcost = g.rcost := by
  unfold rcost
  rw [h.r0 hr, h.opn, h.open_c0.1, h.open_c0.2]
  rcases hr with hr | hr
  · rw [hr]
  · rw [hr, stepCost_comm]

theorem rcost_o (h : Sw g g' u c0 a v c1 b) (hm : g.root.2 ∈ g.nb g.root.1 ∧ g.root.1 ∈ g.nb g.root.2)
    (hr : ¬ (g'.root = (u, v) ∨ g'.root = (v, u))) : g'.rcost = g.rcost := by
  by_cases h0 : g.root = (u, c0) ∨ g.root = (c0, u)
  · exact h.rcost_c0 h0
  by_cases h1 : g.root = (v, c1) ∨ g.root = (c1, v)
  · exact h.symm.rcost_c0 h1
  have hro := h.ro h0 h1
  rw [hro] at hr
  push Not at h0 h1 hr
  unfold rcost
  rw [hro, h.opn]
  have e1 : g'.side g.root.1 g.root.2 = g.side g.root.1 g.root.2 := by
    apply h.so _ _ hm.1 hm.2 hr.1 hr.2 h0.1 h0.2 h1.1 h1.2
  have hne : ∀ x y : Nat, g.root ≠ (x, y) → (g.root.2, g.root.1) ≠ (y, x) := by
    intro x y h1 h2
    apply h1
    rw [Prod.mk.injEq] at h2
    rw [← h2.1, ← h2.2]
  have e2 : g'.side g.root.2 g.root.1 = g.side g.root.2 g.root.1 := by
    apply h.so _ _ hm.2 hm.1 (hne _ _ hr.2) (hne _ _ hr.1) (hne _ _ h0.2) (hne _ _ h0.1) (hne _ _ h1.2) (hne _ _ h1.1)
  rw [h.open_o e1 e2, h.open_o e2 e1]

/-- `u` and `v` do not both lead away from each other. -/
theorem not_both (h : Sw g g' u c0 a v c1 b) (he : ∀ x, x < 2 * g.n - 2 → ∀ y ∈ g.nb x, g.parent x = y ∨ g.parent y = x)
    (h1 : g.parent u = c0) : g.parent v = u := by
  rcases he u h.hu.2 v h.ends.2.2.2.1 with h2 | h2
  · exact absurd (h2.symm.trans h1) h.four.c0v.symm
  · exact h2

theorem parent_u (h : Sw g g' u c0 a v c1 b) (hp : g.Parents) :
    g'.parent u ∈ g'.nb u := by
  rw [h.nu']
  by_cases h1 : g.parent u = c0
  · rw [(h.pu h1).1]; simp
  by_cases h2 : g.parent v = c1
  · rw [(h.pv h2).2]; simp
  rw [(h.pn h1 h2).1]
  have := mem_nb.2 (hp.mem u h.hu.2)
  rw [h.nu] at this
  simp only [Finset.mem_insert, Finset.mem_singleton] at this ⊢
  tauto

theorem parent_c0 (h : Sw g g' u c0 a v c1 b) (hp : g.Parents) : g'.parent c0 ∈ g'.nb c0 := by
  rw [h.n0, h.p0]
  split
  · simp
  · rename_i h1
    exact Finset.mem_insert_of_mem (Finset.mem_erase.2 ⟨h1, mem_nb.2 (hp.mem c0 h.ends.1)⟩)

/-- Vertices that are parents of each other stay so, apart from those at the edges moved. -/
theorem parent_keep (h : Sw g g' u c0 a v c1 b) (he : ∀ x, x < 2 * g.n - 2 → ∀ y ∈ g.nb x, g.parent x = y ∨ g.parent y = x)
    {x y : Nat} (hxy : g.parent x = y) (hyx : g.parent y = x) (h0 : ¬ (x = u ∧ y = c0)) (h0' : ¬ (x = c0 ∧ y = u))
    (h1 : ¬ (x = v ∧ y = c1)) (h1' : ¬ (x = c1 ∧ y = v)) : g'.parent x = y := by
  have keyu : ∀ {u c0 a v c1 b : Nat}, Sw g g' u c0 a v c1 b → g.parent u = y → g.parent y = u → ¬ (y = c0) → g'.parent u = y := by
    intro u c0 a v c1 b h e1 e2 h0
    have n1 : g.parent u ≠ c0 := by rw [e1]; exact h0
    have n2 : g.parent v ≠ c1 := by
      intro e
      have := h.symm.not_both he e
      rw [e1] at this
      subst this
      rw [e2] at e
      exact h.four.c1u e.symm
    rw [(h.pn n1 n2).1, e1]
  by_cases e : x = u
  · subst e; exact keyu h hxy hyx (fun e => h0 ⟨rfl, e⟩)
  by_cases e' : x = v
  · subst e'; exact keyu h.symm hxy hyx (fun e => h1 ⟨rfl, e⟩)
  by_cases f : x = c0
  · subst f
    rw [h.p0, if_neg (by rw [hxy]; exact fun e => h0' ⟨rfl, e⟩), hxy]
  by_cases f' : x = c1
  · subst f'
    rw [h.p1, if_neg (by rw [hxy]; exact fun e => h1' ⟨rfl, e⟩), hxy]
  rw [h.po x e e' f f', hxy]

theorem root_c0 (h : Sw g g' u c0 a v c1 b) (hp : g.Parents) (hr : g.root = (u, c0) ∨ g.root = (c0, u)) :
    g'.parent g'.root.1 = g'.root.2 ∧ g'.parent g'.root.2 = g'.root.1 := by
  rw [h.r0 hr]
  have : g.parent u = c0 ∧ g.parent c0 = u := by
    have := hp.root
    rcases hr with hr | hr
    · rw [hr] at this; exact this
    · rw [hr] at this; exact this.symm
  refine ⟨(h.pu this.1).2, ?_⟩
  show g'.parent c0 = v
  rw [h.p0, if_pos this.2]

theorem uniq_u (h : Sw g g' u c0 a v c1 b) (hp : g.Parents) (hm : g'.parent (g'.parent u) = u) :
    g'.root = (u, g'.parent u) ∨ g'.root = (g'.parent u, u) := by
  have hf := h.four
  by_cases h1 : g.parent u = c0
  · rw [(h.pu h1).1, (h.pu h1).2] at hm
    exact absurd hm hf.c0u
  by_cases h2 : g.parent v = c1
  · rw [(h.pv h2).2, h.p1] at hm
    rw [(h.pv h2).2]
    split at hm
    · rename_i h3
      left
      apply h.r1
      rcases hp.uniq v h.hv.2 (by rw [h2, h3]) with hr | hr
      · left; rw [hr, h2]
      · right; rw [hr, h2]
    · have := hp.mem c1 h.symm.ends.1
      rw [hm] at this
      exact absurd (mem_nb.2 this) h.symm.ends.2.2.2.2
  obtain ⟨e1, e2⟩ := h.pn h1 h2
  rw [e1] at hm ⊢
  have hpu := mem_nb.2 (hp.mem u h.hu.2)
  have hmu : g.parent (g.parent u) = u := by
    rw [h.nu, Finset.mem_insert, Finset.mem_insert, Finset.mem_singleton] at hpu
    rcases hpu with e | e | e
    · rw [e] at hm ⊢
      rw [← e2, hm]
    · exact absurd e h1
    · rw [e] at hm ⊢
      rw [← h.po a h.ha.1 h.ha.2.1 h.ha.2.2.1 h.ha.2.2.2, hm]
  have hr := hp.uniq u h.hu.2 hmu
  have := h.ro ?_ ?_
  · rw [this]; exact hr
  · rintro (e | e) <;> rcases hr with hr | hr <;> rw [e, Prod.mk.injEq] at hr
    · exact h1 hr.2.symm
    · exact hf.c0u hr.2
    · exact hf.c0u hr.1
    · exact h1 hr.1.symm
  · rintro (e | e) <;> rcases hr with hr | hr <;> rw [e, Prod.mk.injEq] at hr
    · exact hf.uv hr.1.symm
    · exact hf.c1u hr.2
    · exact hf.c1u hr.1
    · exact hf.uv hr.2.symm

theorem uniq_c0 (h : Sw g g' u c0 a v c1 b) (hp : g.Parents) (hm : g'.parent (g'.parent c0) = c0) :
    g'.root = (c0, g'.parent c0) ∨ g'.root = (g'.parent c0, c0) := by
  have hf := h.four
  have he := h.ends
  rw [h.p0] at hm ⊢
  by_cases h1 : g.parent c0 = u
  · rw [if_pos h1] at hm ⊢
    by_cases h2 : g.parent u = c0
    · right
      apply h.r0
      rcases hp.uniq u h.hu.2 (by rw [h2, h1]) with hr | hr
      · left; rw [hr, h2]
      · right; rw [hr, h2]
    · exfalso
      by_cases h3 : g.parent v = c1
      · rw [(h.pv h3).1] at hm
        exact hf.c0u hm.symm
      · rw [(h.pn h2 h3).2] at hm
        have := hp.mem v h.hv.2
        rw [hm] at this
        exact hf.nc0 this
  · rw [if_neg h1] at hm ⊢
    have hpm := mem_nb.2 (hp.mem c0 he.1)
    have hpv : g.parent c0 ≠ v := fun e => he.2.2.2.2 (e ▸ hpm)
    have hp0 : g.parent c0 ≠ c0 := (h.sym c0 he.1 _ hpm).2.2
    have hmu : g.parent (g.parent c0) = c0 := by
      by_cases e : g.parent c0 = c1
      · rw [e, h.p1] at hm
        rw [e]
        split at hm
        · exact absurd hm hf.c0u.symm
        · exact hm
      · rw [← h.po _ h1 hpv hp0 e, hm]
    have hr := hp.uniq c0 he.1 hmu
    have := h.ro ?_ ?_
    · rw [this]; exact hr
    · rintro (e | e) <;> rcases hr with hr | hr <;> rw [e, Prod.mk.injEq] at hr
      · exact hf.c0u hr.1.symm
      · exact h1 hr.1.symm
      · exact h1 hr.2.symm
      · exact hf.c0u hr.2.symm
    · rintro (e | e) <;> rcases hr with hr | hr <;> rw [e, Prod.mk.injEq] at hr
      · exact hf.c0v hr.1.symm
      · exact hf.cc hr.2.symm
      · exact hf.cc hr.1.symm
      · exact hf.c0v hr.2.symm

theorem uniq_o (h : Sw g g' u c0 a v c1 b) (hp : g.Parents) {x : Nat} (hx : x < 2 * g.n - 2) (hu : x ≠ u) (hv : x ≠ v) (h0 : x ≠ c0)
    (h1 : x ≠ c1) (hm : g'.parent (g'.parent x) = x) : g'.root = (x, g'.parent x) ∨ g'.root = (g'.parent x, x) := by
  rw [h.po x hu hv h0 h1] at hm ⊢
  have keyu : ∀ {u c0 a v c1 b : Nat}, Sw g g' u c0 a v c1 b → x ≠ u → x ≠ v → x ≠ c0 → x ≠ c1 → g.parent x = u → g'.parent u = x →
      g.parent u = x := by
    intro u c0 a v c1 b h hu hv h0 h1 e hm
    by_cases n1 : g.parent u = c0
    · rw [(h.pu n1).1] at hm; exact absurd hm hv.symm
    by_cases n2 : g.parent v = c1
    · rw [(h.pv n2).2] at hm; exact absurd hm h1.symm
    rw [← (h.pn n1 n2).1, hm]
  have key0 : ∀ {u c0 a v c1 b : Nat}, Sw g g' u c0 a v c1 b → x ≠ v → g'.parent c0 = x → g.parent c0 = x := by
    intro u c0 a v c1 b h hv hm
    rw [h.p0] at hm
    split at hm
    · exact absurd hm hv.symm
    · exact hm
  have hmu : g.parent (g.parent x) = x := by
    by_cases e : g.parent x = u
    · rw [e] at hm ⊢; exact keyu h hu hv h0 h1 e hm
    by_cases e' : g.parent x = v
    · rw [e'] at hm ⊢; exact keyu h.symm hv hu h1 h0 e' hm
    by_cases f : g.parent x = c0
    · rw [f] at hm ⊢; exact key0 h hv hm
    by_cases f' : g.parent x = c1
    · rw [f'] at hm ⊢; exact key0 h.symm hu hm
    rw [← h.po _ e e' f f', hm]
  have hr := hp.uniq x hx hmu
  have := h.ro ?_ ?_
  · rw [this]; exact hr
  · rintro (e | e) <;> rcases hr with hr | hr <;> rw [e, Prod.mk.injEq] at hr
    · exact hu hr.1.symm
    · exact h0 hr.2.symm
    · exact h0 hr.1.symm
    · exact hu hr.2.symm
  · rintro (e | e) <;> rcases hr with hr | hr <;> rw [e, Prod.mk.injEq] at hr
    · exact hv hr.1.symm
    · exact h1 hr.2.symm
    · exact h1 hr.1.symm
    · exact hv hr.2.symm

theorem parents (h : Sw g g' u c0 a v c1 b) (hp : g.Parents) (he : ∀ x, x < 2 * g.n - 2 → ∀ y ∈ g.nb x, g.parent x = y ∨ g.parent y = x) :
    g'.Parents := by
  constructor
  · intro x hx
    rw [h.n] at hx
    rw [← mem_nb]
    by_cases hu : x = u
    · subst hu; exact h.parent_u hp
    by_cases hv : x = v
    · subst hv; exact h.symm.parent_u hp
    by_cases h0 : x = c0
    · subst h0; exact h.parent_c0 hp
    by_cases h1 : x = c1
    · subst h1; exact h.symm.parent_c0 hp
    rw [h.no x hu hv h0 h1, h.po x hu hv h0 h1, mem_nb]
    exact hp.mem x hx
  · by_cases h0 : g.root = (u, c0) ∨ g.root = (c0, u)
    · exact h.root_c0 hp h0
    by_cases h1 : g.root = (v, c1) ∨ g.root = (c1, v)
    · exact h.symm.root_c0 hp h1
    rw [h.ro h0 h1]
    push Not at h0 h1
    obtain ⟨e1, e2⟩ := hp.root
    have hne : ∀ x y : Nat, g.root ≠ (x, y) → ¬ (g.root.1 = x ∧ g.root.2 = y) := fun x y h1 h2 => h1 (Prod.ext h2.1 h2.2)
    have hne' : ∀ x y : Nat, g.root ≠ (x, y) → ¬ (g.root.2 = y ∧ g.root.1 = x) := fun x y h1 h2 => h1 (Prod.ext h2.2 h2.1)
    exact ⟨h.parent_keep he e1 e2 (hne _ _ h0.1) (hne _ _ h0.2) (hne _ _ h1.1) (hne _ _ h1.2),
      h.parent_keep he e2 e1 (hne' _ _ h0.2) (hne' _ _ h0.1) (hne' _ _ h1.2) (hne' _ _ h1.1)⟩
  · intro x hx hm
    rw [h.n] at hx
    by_cases hu : x = u
    · subst hu; exact h.uniq_u hp hm
    by_cases hv : x = v
    · subst hv; exact h.symm.uniq_u hp hm
    by_cases h0 : x = c0
    · subst h0; exact h.uniq_c0 hp hm
    by_cases h1 : x = c1
    · subst h1; exact h.symm.uniq_c0 hp hm
    exact h.uniq_o hp hx hu hv h0 h1 hm

end Sw

end Uct

end Verif
