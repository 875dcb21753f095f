import Verif.Lemmas.SlicerTree
import Verif.Spec.Ranges
import Verif.Props.Orders
/-!
# The slicer: the ranges of subscripts on the stem
-/

namespace Verif

theorem put_foldl {l : List Nat} {d : Nat → Nat} {i a : Nat} : l.foldl (fun d a => put d a i) d a = if a ∈ l then i else d a := by
  induction l generalizing d with
  | nil => simp
  | cons b l ih =>
    rw [List.foldl_cons, ih]
    by_cases h : a ∈ l
    · simp [h]
    · by_cases hb : a = b
      · subst hb; simp [h, put]
      · simp [h, hb, put]

/-- The loop of `_biggest_weight_edge` over the stem, for any sets. -/
def spanLoop (enum : Finset Nat → List Nat) (O : Nat → Finset Nat) (m : Nat) : Finset Nat × (Nat → Nat) × List (Nat × Nat × Nat) :=
  (List.range m).foldl (fun (st : Finset Nat × (Nat → Nat) × List (Nat × Nat × Nat)) i =>
    let dic := (enum (O i \ st.1)).foldl (fun d a => put d a i) st.2.1
    (O i, dic, st.2.2 ++ (enum (st.1 \ O i)).map fun a => (a, dic a, i))) (∅, fun _ => 0, [])

theorem spanLoop_spec {enum : Finset Nat → List Nat} (he : ∀ S a, a ∈ enum S ↔ a ∈ S) (O : Nat → Finset Nat) (m : Nat) :
    (spanLoop enum O m).1 = (if m = 0 then ∅ else O (m - 1)) ∧
    (∀ a ∈ (spanLoop enum O m).1, (spanLoop enum O m).2.1 a < m ∧
      (∀ k, (spanLoop enum O m).2.1 a ≤ k → k < m → a ∈ O k) ∧ ((spanLoop enum O m).2.1 a = 0 ∨ a ∉ O ((spanLoop enum O m).2.1 a - 1))) ∧
    ∀ a d i, (a, d, i) ∈ (spanLoop enum O m).2.2 ↔ i < m ∧ Range O a d i := by
  induction m with
  | zero => simp [spanLoop]
  | succ m ih =>
    obtain ⟨i1, i2, i3⟩ := ih
    have e : spanLoop enum O (m + 1) =
      let st := spanLoop enum O m
      let dic := (enum (O m \ st.1)).foldl (fun d a => put d a m) st.2.1
      (O m, dic, st.2.2 ++ (enum (st.1 \ O m)).map fun a => (a, dic a, m)) := by
      unfold spanLoop
      rw [List.range_succ, List.foldl_append]
      rfl
    generalize spanLoop enum O m = st at i1 i2 i3 e
    obtain ⟨se, dic, ss⟩ := st
    dsimp only at i1 i2 i3 e
    have hd : ∀ a, (enum (O m \ se)).foldl (fun d a => put d a m) dic a = if a ∈ O m ∧ a ∉ se then m else dic a := by
      intro a
      rw [put_foldl]
      simp only [he, Finset.mem_sdiff]
    generalize (enum (O m \ se)).foldl (fun d a => put d a m) dic = dic' at hd e
    rw [e]
    dsimp only
    refine ⟨by simp, fun a ha => ?_, fun a d i => ?_⟩
    · rw [hd]
      by_cases hs : a ∈ se
      · rw [if_neg (by simp [hs])]
        obtain ⟨k1, k2, k3⟩ := i2 a hs
        refine ⟨by omega, fun k hk1 hk2 => ?_, k3⟩
        rcases Nat.lt_succ_iff_lt_or_eq.1 hk2 with h | h
        · exact k2 k hk1 h
        · exact h ▸ ha
      · rw [if_pos ⟨ha, hs⟩]
        refine ⟨by omega, fun k hk1 hk2 => ?_, ?_⟩
        · have : k = m := by omega
          exact this ▸ ha
        · rcases Nat.eq_zero_or_pos m with h | h
          · exact Or.inl h
          · rw [i1, if_neg (by omega)] at hs
            exact Or.inr hs
    · rw [List.mem_append, i3, List.mem_map]
      constructor
      · rintro (⟨h1, h2⟩ | ⟨b, hb, hx⟩)
        · exact ⟨by omega, h2⟩
        · rw [he, Finset.mem_sdiff] at hb
          simp only [Prod.mk.injEq] at hx
          obtain ⟨rfl, h2, rfl⟩ := hx
          rw [hd, if_neg (by simp [hb.1])] at h2
          obtain ⟨k1, k2, k3⟩ := i2 b hb.1
          rw [h2] at k1 k2 k3
          exact ⟨by omega, k1, k2, hb.2, k3⟩
      · rintro ⟨h1, h2⟩
        rcases Nat.lt_succ_iff_lt_or_eq.1 h1 with h | h
        · exact Or.inl ⟨h, h2⟩
        · subst h
          right
          obtain ⟨r1, r2, r3, r4⟩ := h2
          have hs : a ∈ se := by
            rw [i1, if_neg (by omega)]
            exact r2 _ (by omega) (by omega)
          refine ⟨a, (he _ _).2 (Finset.mem_sdiff.2 ⟨hs, r3⟩), ?_⟩
          rw [hd, if_neg (by simp [hs])]
          obtain ⟨k1, k2, k3⟩ := i2 a hs
          have hda : dic a = d := by
            by_contra hne
            rcases Nat.lt_or_gt_of_ne hne with hlt | hgt
            · rcases r4 with r4 | r4
              · omega
              · exact r4 (k2 _ (by omega) (by omega))
            · rcases k3 with k3 | k3
              · omega
              · exact k3 (r2 _ (by omega) (by omega))
          rw [hda]

namespace Uct

theorem spans_eq (enum : Finset Nat → List Nat) (g : Uct) :
    g.spans enum = (spanLoop enum (fun i => g.openAt (g.parent (g.stem.getD i 0)) (g.stem.getD i 0)) (g.stem.length - 1)).2.2 := rfl

theorem mem_spans {enum : Finset Nat → List Nat} (he : ∀ S a, a ∈ enum S ↔ a ∈ S) {g : Uct} {a d i : Nat} :
    (a, d, i) ∈ g.spans enum ↔ i + 1 < g.stem.length ∧
      Range (fun i => g.openAt (g.parent (g.stem.getD i 0)) (g.stem.getD i 0)) a d i := by
  rw [spans_eq, (spanLoop_spec he _ _).2.2]
  exact and_congr_left fun _ => by omega

theorem mem_longest {ss : List (Nat × Nat × Nat)} {x : Nat × Nat × Nat} (h : x ∈ longest ss) : x ∈ ss :=
  (List.perm_insertionSort _ _).subset (List.mem_of_mem_take h)

theorem longest_nil {ss : List (Nat × Nat × Nat)} : longest ss = [] ↔ ss = [] := by
  unfold longest
  rw [List.take_eq_nil_iff]
  constructor
  · rintro (h | h)
    · simp at h
    · have := List.length_insertionSort (fun x y : Nat × Nat × Nat => (x.2.1 : Int) - x.2.2 ≤ (y.2.1 : Int) - y.2.2) ss
      rw [h] at this
      exact List.length_eq_zero_iff.1 this.symm
  · rintro rfl
    exact Or.inr rfl

/-- Beyond an edge there are only subscripts of operands. -/
theorem side_sub {g : Uct} (h : g.Inv) {x y : Nat} (hx : x < 2 * g.n - 2) (hy : y ∈ g.adj x) {a : Nat} (ha : a ∈ g.sd x y) :
    ∃ i < g.n, a ∈ g.sub i := by
  obtain ⟨s, h1, h2⟩ := h.beyond hx hy
  have e : g.sd x y = s := by unfold sd; rw [h1]; rfl
  obtain ⟨z, _, hz, hz', _⟩ := (h2 a).1 (e ▸ ha)
  exact ⟨z, hz, hz'⟩

variable {lhs : List (Finset Nat)} {rhs : Finset Nat}

/-- A range on the stem belongs to a subscript of some operand. -/
theorem spans_sub {enum : Finset Nat → List Nat} (he : ∀ S a, a ∈ enum S ↔ a ∈ S) {g : Uct} (h : Reach lhs rhs g) {x : Nat × Nat × Nat}
    (hx : x ∈ g.spans enum) : x.2.1 < x.2.2 ∧ x.2.2 + 1 < g.stem.length ∧ ∃ i < lhs.length, x.1 ∈ lhs.getD i ∅ := by
  obtain ⟨a, d, i⟩ := x
  obtain ⟨h1, r1, r2, _, _⟩ := (mem_spans he).1 hx
  refine ⟨r1, h1, ?_⟩
  obtain ⟨hI, hS, hn, _, hs⟩ := h.inv
  have h3 := r2 d (le_refl _) r1
  have hd : g.stem.getD d 0 < 2 * g.n - 2 := by
    apply hS.2
    rw [getD_lt (by omega)]
    exact List.getElem_mem _
  have hp := hI.parents.mem _ hd
  have hn' := (hI.nbrs hd).2.2 _ hp
  have h4 : a ∈ g.sd (g.parent (g.stem.getD d 0)) (g.stem.getD d 0) := by
    dsimp only at h3
    rw [openAt_eq] at h3
    split at h3
    · exact h3
    · exact (Finset.mem_inter.1 h3).1
  obtain ⟨j, j1, j2⟩ := side_sub hI hn'.2.1 hn'.1 h4
  exact ⟨j, by omega, by rw [← hs]; exact j2⟩

end Uct

open Uct

/-- What is known during the loop over the ranges. -/
structure Pick.Good (lhs : List (Finset Nat)) (rhs : Finset Nat) (U : Nat → Prop) (st : List Nat) (p : Pick) : Prop where
  tree : Shadow lhs rhs p.tree
  stem : p.tree.stem = st
  taken : ∀ a ∈ p.taken, U a
  dic : ∀ x ∈ p.dic, U x.1 ∧ ValidPath lhs.length (x.2.2.map fun e => [e.1, e.2])

theorem mem_dictSet {K V : Type} [DecidableEq K] {d : Dict K V} {k : K} {v : V} {x : K × V} (h : x ∈ d.set k v) : x = (k, v) ∨ x ∈ d := by
  induction d with
  | nil => simp only [Dict.set, List.mem_singleton] at h; exact Or.inl h
  | cons y d ih =>
    unfold Dict.set at h
    split at h
    · rcases List.mem_cons.1 h with h | h
      · exact Or.inl h
      · exact Or.inr (List.mem_cons_of_mem _ h)
    · rcases List.mem_cons.1 h with h | h
      · exact Or.inr (h ▸ List.mem_cons_self)
      · exact (ih h).imp id (List.mem_cons_of_mem _)

theorem dictSet_ne {K V : Type} [DecidableEq K] {d : Dict K V} {k : K} {v : V} : d.set k v ≠ [] := by
  cases d with
  | nil => simp [Dict.set]
  | cons y d => unfold Dict.set; split <;> simp

variable {lhs : List (Finset Nat)} {rhs : Finset Nat}

theorem Pick.Good.round {U : Nat → Prop} {st : List Nat} {accept : Int → Int → Bool} {p : Pick} {s : Nat × Nat × Nat} (h : p.Good lhs rhs U st)
    (h1 : s.2.1 < s.2.2) (h2 : s.2.2 + 1 < st.length) (hU : U s.1) :
    ∃ p', p.round accept s = some p' ∧ p'.Good lhs rhs U st ∧ (p'.taken ≠ [] ∨ p'.dic ≠ []) ∧ p'.taken.length ≤ p.taken.length + 1 := by
  obtain ⟨⟨g, cur⟩, a1, a2, a3⟩ := h.tree.without h1 (by rw [h.stem]; exact h2)
  dsimp only at a2 a3
  unfold Pick.round
  simp only [a1]
  split
  · refine ⟨_, rfl, ⟨a2, a3.trans h.stem, fun a ha => ?_, h.dic⟩, Or.inl (by simp), by simp⟩
    rcases List.mem_append.1 ha with ha | ha
    · exact h.taken a ha
    · rw [List.mem_singleton.1 ha]; exact hU
  · obtain ⟨path, b1, b2⟩ := a2.path
    rw [b1]
    refine ⟨_, rfl, ⟨h.tree, h.stem, h.taken, fun x hx => ?_⟩, Or.inr dictSet_ne, by simp⟩
    rcases mem_dictSet hx with rfl | hx
    · exact ⟨hU, b2⟩
    · exact h.dic x hx

theorem Pick.Good.rounds {U : Nat → Prop} {st : List Nat} {accept : Int → Int → Bool} : ∀ {ss : List (Nat × Nat × Nat)} {p : Pick},
    p.Good lhs rhs U st → (∀ s ∈ ss, s.2.1 < s.2.2 ∧ s.2.2 + 1 < st.length ∧ U s.1) →
    ∃ p', ss.foldlM (Pick.round accept) p = some p' ∧ p'.Good lhs rhs U st ∧ (ss ≠ [] → p'.taken ≠ [] ∨ p'.dic ≠ []) ∧ (ss = [] → p' = p) ∧
      p'.taken.length ≤ p.taken.length + ss.length
  | [], p, h, _ => ⟨p, rfl, h, fun h => absurd rfl h, fun _ => rfl, by simp⟩
  | s :: ss, p, h, hs => by
    obtain ⟨k1, k2, k3⟩ := hs s List.mem_cons_self
    obtain ⟨p1, a1, a2, a3, a4⟩ := h.round (accept := accept) k1 k2 k3
    obtain ⟨p2, b1, b2, b3, b4, b5⟩ := Pick.Good.rounds (accept := accept) a2 fun s hs' => hs s (List.mem_cons_of_mem _ hs')
    refine ⟨p2, by rw [List.foldlM_cons, a1]; exact b1, b2, fun _ => ?_, fun h => by simp at h, by simp only [List.length_cons]; omega⟩
    by_cases h : ss = []
    · rw [b4 h]; exact a3
    · exact b3 h

theorem cheapest_mem {α : Type} {d : Dict Nat (Int × α)} {x : Nat × Int × α} (h : cheapest d = some x) : x ∈ d ∧ ∀ y ∈ d, x.2.1 ≤ y.2.1 := by
  induction d generalizing x with
  | nil => simp [cheapest] at h
  | cons a d ih =>
    unfold cheapest at h
    split at h
    · rename_i hn
      simp only [Option.some.injEq] at h
      subst h
      have : d = [] := by
        cases d with
        | nil => rfl
        | cons b d =>
          unfold cheapest at hn
          split at hn
          · simp at hn
          · split at hn <;> simp at hn
      subst this
      simp
    · rename_i y hy
      obtain ⟨m1, m2⟩ := ih hy
      split at h
      · simp only [Option.some.injEq] at h
        subst h
        rename_i hle
        refine ⟨List.mem_cons_self, fun z hz => ?_⟩
        rcases List.mem_cons.1 hz with rfl | hz
        · exact le_refl _
        · exact hle.trans (m2 z hz)
      · simp only [Option.some.injEq] at h
        subst h
        rename_i hle
        refine ⟨List.mem_cons_of_mem _ m1, fun z hz => ?_⟩
        rcases List.mem_cons.1 hz with rfl | hz
        · exact (not_le.1 hle).le
        · exact m2 z hz

theorem cheapest_none {α : Type} {d : Dict Nat (Int × α)} : cheapest d = none ↔ d = [] := by
  cases d with
  | nil => simp [cheapest]
  | cons b d =>
    unfold cheapest
    simp only [reduceCtorEq, iff_false]
    split
    · simp
    · split <;> simp

theorem Pick.Good.result {U : Nat → Prop} {st : List Nat} {p : Pick} (h : p.Good lhs rhs U st) (hne : p.taken ≠ [] ∨ p.dic ≠ []) :
    ∃ subs path, p.result = some (subs, path) ∧ subs ≠ [] ∧ (∀ a ∈ subs, U a) ∧ ValidPath lhs.length (path.map fun e => [e.1, e.2]) ∧
      subs.length ≤ max 1 p.taken.length := by
  unfold Pick.result
  split
  · rename_i hl
    obtain ⟨path, b1, b2⟩ := h.tree.path
    rw [b1]
    exact ⟨_, _, rfl, List.ne_nil_of_length_pos hl, h.taken, b2, by simp⟩
  · rename_i hl
    have hd : p.dic ≠ [] := hne.resolve_left (by simpa using hl)
    obtain ⟨x, hx⟩ := Option.ne_none_iff_exists'.1 (mt cheapest_none.1 hd)
    rw [hx]
    obtain ⟨h1, h2⟩ := h.dic x (cheapest_mem hx).1
    exact ⟨_, _, rfl, by simp, by simpa using h1, h2, by simp⟩

/-- slicer.py:203-208: a path whose steps get new names is an order. -/
theorem renameSteps_spec {pp : List (Nat × Nat)} : ∀ {ns : List Nm} {order : List OrderStep}, ValidPath ns.length (pp.map fun e => [e.1, e.2]) →
    pp.length = order.length → SingleAssignment ns order → ∀ {last : Nm}, (ns ++ order.map (·.2)).getLast? = some last →
    ∃ o, renameSteps ns pp order = some o ∧ ValidOrder ns o last ∧ Pairwise2 o ∧ o.map (·.2) = order.map (·.2) := by
  induction pp with
  | nil =>
    intro ns order hv hl hs last hlast
    have h1 : ns.length = 1 := by
      rw [List.map_nil] at hv
      generalize ns.length = m at hv
      cases hv
      rfl
    have h2 : order = [] := List.length_eq_zero_iff.1 (by simpa using hl.symm)
    subst h2
    obtain ⟨z, rfl⟩ := List.length_eq_one_iff.1 h1
    simp at hlast
    subst hlast
    exact ⟨[], rfl, .done _, by simp [Pairwise2], rfl⟩
  | cons e pp ih =>
    intro ns order hv hl hs last hlast
    obtain ⟨i, j⟩ := e
    cases order with
    | nil => simp at hl
    | cons s order =>
      obtain ⟨xs, z⟩ := s
      rw [List.map_cons] at hv
      generalize hm : ns.length = m at hv
      cases hv with
      | @two n _ _ _ hi hj hij hv =>
        rw [← hm] at hi hj
        have ei := List.getElem?_eq_getElem hi
        have ej := List.getElem?_eq_getElem hj
        have hp := eraseIdx_two_perm ei ej hij
        have hlen : ((ns.eraseIdx (max i j)).eraseIdx (min i j)).length + 2 = ns.length := by
          have := hp.length_eq
          simp at this
          omega
        have hz : z ∉ ns := by
          have := hs
          unfold SingleAssignment at this
          rw [List.nodup_append'] at this
          exact fun hc => this.2.2 hc (by simp)
        have hs' : SingleAssignment ((ns.eraseIdx (max i j)).eraseIdx (min i j) ++ [z]) order := by
          unfold SingleAssignment at hs ⊢
          rw [List.append_assoc]
          have : (ns ++ z :: order.map (·.2)).Nodup := hs
          have hq := (hp.append_right (z :: order.map (·.2))).nodup_iff.1 this
          simp only [List.cons_append, List.nodup_cons] at hq
          exact hq.2.2
        obtain ⟨o, a1, a2, a3, a4⟩ := ih (ns := (ns.eraseIdx (max i j)).eraseIdx (min i j) ++ [z]) (order := order)
          (by
            rw [List.length_append, List.length_singleton]
            have : n = ((ns.eraseIdx (max i j)).eraseIdx (min i j)).length + 1 := by omega
            exact this ▸ hv) (by simpa using hl) hs' (last := last) (by
            rw [← hlast]
            simp [List.getLast?_append, List.getLast?_cons])
        refine ⟨([ns[i], ns[j]], z) :: o, ?_, ?_, ?_, ?_⟩
        · unfold renameSteps
          simp only [ei, ej]
          rw [a1]
          rfl
        · refine .step (rest := (ns.eraseIdx (max i j)).eraseIdx (min i j)) hp (by simp) (fun hc => hz ?_) ?_
          · exact hp.symm.subset (by simp [hc])
          · exact validOrder_iff.2 ((validOrder_iff.1 a2).permL (List.perm_append_comm (l₁ := _) (l₂ := [z])))
        · intro s hs
          rcases List.mem_cons.1 hs with rfl | hs
          · rfl
          · exact a3 s hs
        · simp [a4]

end Verif
