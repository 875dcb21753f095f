import Verif.Lemmas.UctUndo
/-!
# `UndirectedContractionTree`: paths in the tree
-/

namespace Verif

open UT

theorem UT.Down.ex {T : UT} : ∀ z ∈ T.labels, ∃ P, Down T P ∧ P.getLast? = some z := by
  induction T with
  | leaf v =>
    intro z hz
    simp only [labels, List.mem_singleton] at hz
    subst hz
    exact ⟨[z], rfl, rfl⟩
  | node v l r ihl ihr =>
    intro z hz
    rw [labels, List.mem_cons, List.mem_append] at hz
    rcases hz with rfl | hz | hz
    · exact ⟨[z], Or.inl rfl, rfl⟩
    · obtain ⟨P, h1, h2⟩ := ihl z hz
      exact ⟨v :: P, Or.inr ⟨P, rfl, Or.inl h1⟩, by rw [List.getLast?_cons, h2]; rfl⟩
    · obtain ⟨P, h1, h2⟩ := ihr z hz
      exact ⟨v :: P, Or.inr ⟨P, rfl, Or.inr h1⟩, by rw [List.getLast?_cons, h2]; rfl⟩

namespace Uct

/-- The vertices beyond an edge. -/
theorem _root_.Verif.Cut.beyond {n : Nat} {adj : Nat → List Nat} {u v : Nat} {Tu Tv : UT} (hc : Cut n adj u v Tu Tv) (hv : v ∈ adj u) (z : Nat) :
    z ∈ Tv.labels ↔ ∃ P, IsGraphPath adj (u :: v :: P) ∧ (v :: P).getLast? = some z := by
  have hnd := List.nodup_append'.1 hc.nodup
  have mu : u ∈ Tu.labels := by have := Tu.top_mem; rwa [hc.tu] at this
  constructor
  · intro hz
    obtain ⟨P, h1, h2⟩ := Down.ex z hz
    obtain ⟨Q, rfl⟩ := h1.head
    have hp := h1.path hc.sv hnd.2.1
    have hm := h1.mem
    rw [hc.tv] at hp h2 hm
    exact ⟨Q, ⟨List.isChain_cons_cons.2 ⟨hv, hp.1⟩, List.nodup_cons.2 ⟨fun e => hnd.2.2 mu (hm u e), hp.2⟩⟩, h2⟩
  · rintro ⟨P, hp, hl⟩
    have h2 := List.nodup_cons.1 hp.2
    have := hc.sv.stays P v (by have := Tv.top_mem; rwa [hc.tv] at this) (List.isChain_cons_cons.1 hp.1).2
      (fun e => h2.1 (List.mem_cons_of_mem _ e))
    exact this z (List.mem_of_getLast? hl)

theorem leaves_iff {n : Nat} {adj : Nat → List Nat} {p : Nat} {T : UT} (h : Shape n adj p T) (z : Nat) : z ∈ T.leaves ↔ z ∈ T.labels ∧ z < n := by
  obtain ⟨h1, h2, h3⟩ := labels_perm h
  rw [h1.mem_iff, List.mem_append]
  constructor
  · intro hz
    exact ⟨Or.inl hz, h2 z hz⟩
  · rintro ⟨hz | hz, hz'⟩
    · exact hz
    · exact absurd (h3 z hz) (Nat.not_le.2 hz')

/-- What is stored at an edge. -/
theorem Inv.beyond {g : Uct} (h : g.Inv) {u v : Nat} (hu : u < 2 * g.n - 2) (hv : v ∈ g.adj u) :
    ∃ s, g.side u v = some s ∧ ∀ e, e ∈ s ↔ ∃ z P, z < g.n ∧ e ∈ g.sub z ∧ IsGraphPath g.adj (u :: v :: P) ∧ (v :: P).getLast? = some z := by
  obtain ⟨s, hs⟩ := Option.isSome_iff_exists.1 (h.sides.some u v hu hv)
  refine ⟨s, hs, fun e => ?_⟩
  obtain ⟨_, _, hc⟩ := h.tree
  obtain ⟨Tu, Tv, hc'⟩ := hc.move hu hv
  have h1 := h.sd_sub hc'.sv hu fun z hz => hc'.mem.2 (Or.inr hz)
  rw [hc'.tv] at h1
  have h2 : g.sd u v = s := by unfold sd; rw [hs]; rfl
  rw [← h2, h1, Finset.mem_biUnion]
  constructor
  · rintro ⟨z, hz, he⟩
    rw [List.mem_toFinset, leaves_iff hc'.sv] at hz
    obtain ⟨P, hP⟩ := (hc'.beyond hv z).1 hz.1
    exact ⟨z, P, hz.2, he, hP⟩
  · rintro ⟨z, P, hz, he, hP⟩
    exact ⟨z, List.mem_toFinset.2 ((leaves_iff hc'.sv z).2 ⟨(hc'.beyond hv z).2 ⟨P, hP⟩, hz⟩), he⟩

/-- The graph is a tree: two vertices are joined by exactly one path. -/
theorem Inv.unique {g : Uct} (h : g.Inv) {x z : Nat} (hx : x < 2 * g.n - 2) (hz : z < 2 * g.n - 2) :
    ∃! P, IsGraphPath g.adj P ∧ P.head? = some x ∧ P.getLast? = some z := by
  obtain ⟨_, _, hc⟩ := h.tree
  by_cases hxz : z = x
  · subst hxz
    refine ⟨[z], ⟨⟨List.isChain_singleton _, by simp⟩, rfl, rfl⟩, ?_⟩
    rintro P ⟨h1, h2, h3⟩
    cases P with
    | nil => simp at h2
    | cons y P =>
      simp only [List.head?_cons, Option.some.injEq] at h2
      subst h2
      cases P with
      | nil => rfl
      | cons w P =>
        rw [List.getLast?_cons_cons] at h3
        exact absurd (List.mem_of_getLast? h3) (List.nodup_cons.1 h1.2).1
  -- the first step
  have hfst : ∀ P, IsGraphPath g.adj P ∧ P.head? = some x ∧ P.getLast? = some z →
      ∃ y Q, P = x :: y :: Q ∧ y ∈ g.adj x ∧ IsGraphPath g.adj (x :: y :: Q) ∧ (y :: Q).getLast? = some z := by
    rintro P ⟨h1, h2, h3⟩
    cases P with
    | nil => simp at h2
    | cons x' P =>
      simp only [List.head?_cons, Option.some.injEq] at h2
      subst h2
      cases P with
      | nil =>
        rw [List.getLast?_singleton, Option.some.injEq] at h3
        exact absurd h3.symm hxz
      | cons y P =>
        exact ⟨y, P, rfl, (List.isChain_cons_cons.1 h1.1).1, h1, by rwa [List.getLast?_cons_cons] at h3⟩
  apply existsUnique_of_exists_of_unique
  · obtain ⟨p, hp⟩ : ∃ p, p ∈ g.adj x := ⟨_, h.parents.mem x hx⟩
    obtain ⟨Tx, Tp, hc'⟩ := hc.move hx hp
    have hnd := List.nodup_append'.1 hc'.nodup
    rcases hc'.mem.1 hz with hz | hz
    · obtain ⟨P, h1, h2⟩ := Down.ex z hz
      obtain ⟨Q, hQ⟩ := h1.head
      exact ⟨P, h1.path hc'.su hnd.1, by rw [hQ, hc'.tu]; rfl, h2⟩
    · obtain ⟨P, h1, h2⟩ := (hc'.beyond hp z).1 hz
      exact ⟨x :: p :: P, h1, rfl, by rw [List.getLast?_cons_cons]; exact h2⟩
  · intro P P' hP hP'
    obtain ⟨y, Q, rfl, m1, p1, l1⟩ := hfst P hP
    obtain ⟨y', Q', rfl, m2, p2, l2⟩ := hfst P' hP'
    obtain ⟨Tx, Ty, hc'⟩ := hc.move hx m1
    have hnd := List.nodup_append'.1 hc'.nodup
    have zy : z ∈ Ty.labels := (hc'.beyond m1 z).2 ⟨Q, p1, l1⟩
    have n2 := List.nodup_cons.1 p2.2
    by_cases e : y' = y
    · subst e
      have n1 := List.nodup_cons.1 p1.2
      have d1 := hc'.sv.down Q (by rw [hc'.tv]; exact ⟨(List.isChain_cons_cons.1 p1.1).2, n1.2⟩) (fun e => n1.1 (List.mem_cons_of_mem _ e))
      have d2 := hc'.sv.down Q' (by rw [hc'.tv]; exact ⟨(List.isChain_cons_cons.1 p2.1).2, n2.2⟩) (fun e => n2.1 (List.mem_cons_of_mem _ e))
      rw [hc'.tv] at d1 d2
      rw [Down.uniq hnd.2.1 d1 d2 (l1.trans l2.symm)]
    · exfalso
      have hoff := off_stem h hx m2 m1 (fun h => e h.symm) (List.isChain_cons_cons.1 p2.1).2 n2.1
      have hy' : y' ∈ Tx.labels := by
        rcases hc'.su.closed x (by have := Tx.top_mem; rwa [hc'.tu] at this) y' m2 with h | h
        · exact h
        · exact absurd h.1 e
      have := hc'.su.stays Q' y' hy' (List.isChain_cons_cons.1 p2.1).2 (fun h => hoff (List.mem_cons_of_mem _ h)) z (List.mem_of_getLast? l2)
      exact hnd.2.2 this zy

/-! ## The methods, when they succeed -/

theorem switchBranches_some {g g' : Uct} {i : Nat} (hi : g.switchBranches i = some g') :
    ∃ X Y t0 u v t1, g.stem = X ++ (t0 :: u :: v :: t1 :: Y) ∧ X.length + 1 = i := by
  unfold switchBranches at hi
  cases h : g.stem4 i with
  | none => rw [h] at hi; simp at hi
  | some q =>
    obtain ⟨t0, u, v, t1⟩ := q
    obtain ⟨X, Y, h1, h2⟩ := stem4_spec h
    exact ⟨X, Y, t0, u, v, t1, h1, h2⟩

theorem mergeBranches_some {g : Uct} {i : Nat} {r : Uct × Nat} (hi : g.mergeBranches i = some r) :
    ∃ X Y t0 u v t1, g.stem = X ++ (t0 :: u :: v :: t1 :: Y) ∧ X.length + 1 = i := by
  unfold mergeBranches at hi
  cases h : g.stem4 i with
  | none => rw [h] at hi; simp at hi
  | some q =>
    obtain ⟨t0, u, v, t1⟩ := q
    obtain ⟨X, Y, h1, h2⟩ := stem4_spec h
    exact ⟨X, Y, t0, u, v, t1, h1, h2⟩

theorem unmergeBranches_some {g g' : Uct} {i : Nat} {c0 : Option Nat} (hi : g.unmergeBranches i c0 = some g') :
    ∃ X Y t0 u t1 v c, g.stem = X ++ (t0 :: u :: t1 :: Y) ∧ X.length + 1 = i ∧ v ∈ g.adj u ∧ v ≠ t0 ∧ v ≠ t1 ∧
      g.subBranch u v c0 = some c ∧ c ∈ g.adj v := by
  unfold unmergeBranches at hi
  split at hi
  · rename_i t0 u t1 heq
    obtain ⟨X, Y, h1, h2⟩ := window (z := [t0, u, t1]) (by simp) heq
    split at hi
    · simp at hi
    · cases h3 : g.third u t0 t1 with
      | none => rw [h3] at hi; simp at hi
      | some v =>
        rw [h3] at hi
        simp only at hi
        obtain ⟨k1, k2, k3⟩ := third_some h3
        cases h4 : g.subBranch u v c0 with
        | none => rw [h4] at hi; simp at hi
        | some c =>
          rw [h4] at hi
          simp only at hi
          refine ⟨X, Y, t0, u, t1, v, c, h1, by omega, k1, k2, k3, h4, ?_⟩
          by_contra hc
          unfold switchEdges at hi
          rw [if_pos (fun h => hc h.2.2)] at hi
          simp at hi
  · simp at hi

theorem stepRoot_some {g g' : Uct} (h : g.Inv) {u v : Nat} (hi : g.stepRoot u v = some g') :
    (u = g.root.1 ∨ u = g.root.2) ∧ g.n ≤ u ∧ v ∈ g.adj u := by
  unfold stepRoot at hi
  split at hi
  · simp at hi
  · rename_i hr
    have hr' : u = g.root.1 ∨ u = g.root.2 := by
      by_contra hc
      exact hr (not_or.1 hc)
    obtain ⟨_, _, hc⟩ := h.tree
    have hroot := hc.adjacent
    have hu : u < 2 * g.n - 2 := by
      rcases hr' with rfl | rfl
      · exact hroot.2.2.1
      · exact hroot.2.2.2.1
    have hn := h.nbrs hu
    refine ⟨hr', ?_⟩
    cases hk : ({ g with root := (u, v), parent := put g.parent u v } : Uct).computeNodeCost u with
    | none => rw [hk] at hi; simp at hi
    | some g1 =>
      unfold computeNodeCost at hk
      simp only [put_same] at hk
      split at hk
      · rename_i c0 c1 heq
        have hlen := congrArg List.length heq
        have hle := List.length_filter_le (fun x => decide (x ≠ v)) (g.adj u)
        simp only [List.length_cons, List.length_nil] at hlen
        have hn2 := hn.2.1
        constructor
        · by_contra hlt
          rw [if_pos (by omega)] at hn2
          omega
        · by_contra hv
          rw [List.filter_eq_self.2 (fun x hx => by
            simp only [decide_eq_true_eq]
            exact fun e => hv (e ▸ hx))] at hlen
          split at hn2 <;> omega
      · simp at hk

end Uct

end Verif
