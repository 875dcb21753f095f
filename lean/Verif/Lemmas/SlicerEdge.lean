import Verif.Lemmas.SlicerSpan
import Verif.Props.Fix
import Verif.Lemmas.Merge
/-!
# The slicer: the edges it chooses and the order it gives
-/

namespace Verif

open Uct

theorem ValidPath.pairs_length {p : List (List Nat)} {n : Nat} (h : ValidPath n p) (h2 : ∀ s ∈ p, s.length = 2) : p.length + 1 = n := by
  induction h with
  | done => rfl
  | one hi h ih => simpa using h2 _ List.mem_cons_self
  | two _ _ _ _ ih =>
    have := ih fun s hs => h2 s (List.mem_cons_of_mem _ hs)
    simp only [List.length_cons]
    omega

theorem pairs_path {p : List (Nat × Nat)} {n : Nat} (h : ValidPath n (p.map fun e => [e.1, e.2])) : p.length + 1 = n := by
  have := h.pairs_length fun s hs => by obtain ⟨e, _, rfl⟩ := List.mem_map.1 hs; rfl
  simpa using this

theorem pairsOfPath_map {p : List (List Nat)} (h : ∀ s ∈ p, s.length = 2) : ∃ q, pairsOfPath p = some q ∧ (q.map fun e => [e.1, e.2]) = p := by
  induction p with
  | nil => exact ⟨[], rfl, rfl⟩
  | cons s p ih =>
    obtain ⟨q, h1, h2⟩ := ih fun s hs => h s (List.mem_cons_of_mem _ hs)
    have hl := h s List.mem_cons_self
    match s, hl with
    | [i, j], _ =>
      refine ⟨(i, j) :: q, ?_, by simp [h2]⟩
      unfold pairsOfPath at h1 ⊢
      rw [List.mapM_cons, h1]
      rfl

theorem orderToPath_pairs {ns : List Nm} {o : List OrderStep} {p : List (List Nat)} (h : orderToPath ns o = some p) : ∀ s ∈ p, s.length = 2 := by
  induction o generalizing ns p with
  | nil =>
    simp only [orderToPath, Option.some.injEq] at h
    simp [← h]
  | cons s o ih =>
    obtain ⟨xs, z⟩ := s
    match xs, h with
    | [], h => simp [orderToPath] at h
    | [x], h => simp [orderToPath] at h
    | x :: y :: xs, h =>
      unfold orderToPath at h
      split at h
      · simp only [Option.map_eq_some_iff] at h
        obtain ⟨q, h1, rfl⟩ := h
        intro s hs
        rcases List.mem_cons.1 hs with rfl | hs
        · rfl
        · exact ih h1 s hs
      · simp at h

theorem ValidOrder.getLast {ns : List Nm} {o : List (List Nm × Nm)} {last : Nm} (h : ValidOrder ns o last) :
    (ns ++ o.map (·.2)).getLast? = some last := by
  induction h with
  | done z => rfl
  | @step ns xs rest z last o hp hx hz h ih =>
    cases o with
    | nil =>
      cases h
      simp
    | cons s o =>
      rw [← ih]
      simp [List.getLast?_append, List.getLast?_cons]

theorem mapM_option_ex {α β : Type} {f : α → Option β} {P : α → β → Prop} : ∀ {l : List α}, (∀ a ∈ l, ∃ b, f a = some b ∧ P a b) →
    ∃ r, l.mapM f = some r ∧ r.length = l.length ∧ ∀ b ∈ r, ∃ a ∈ l, f a = some b ∧ P a b
  | [], _ => ⟨[], rfl, rfl, by simp⟩
  | a :: l, h => by
    obtain ⟨b, h1, h2⟩ := h a List.mem_cons_self
    obtain ⟨r, a1, a2, a3⟩ := mapM_option_ex fun a ha => h a (List.mem_cons_of_mem _ ha)
    refine ⟨b :: r, ?_, by simp [a2], fun c hc => ?_⟩
    · rw [List.mapM_cons, h1, a1]
      rfl
    · rcases List.mem_cons.1 hc with rfl | hc
      · exact ⟨a, List.mem_cons_self, h1, h2⟩
      · obtain ⟨a', k1, k2⟩ := a3 c hc
        exact ⟨a', List.mem_cons_of_mem _ k1, k2⟩

variable {τ : Type}

/-- Everything about `_biggest_weight_edge` but the cost. -/
theorem biggestEdge_spec {enum : Finset Nat → List Nat} (he : ∀ S a, a ∈ enum S ↔ a ∈ S) (accept : Int → Int → Bool) {tn : TN τ}
    (hc : tn.Consistent) {order : List OrderStep} {last : Nm} (hv : ValidOrder tn.nodes.keys order last)
    (hs : SingleAssignment tn.nodes.keys order) (hp : Pairwise2 order) (h2 : 2 ≤ tn.nodes.keys.length) :
    ∃ path g, (orderToPath tn.nodes.keys order).bind pairsOfPath = some path ∧
      make tn.fixAll.subSets.1 tn.fixAll.subSets.2 path = some g ∧ Uct.Reach tn.fixAll.subSets.1 tn.fixAll.subSets.2 g ∧
      (g.spans enum = [] → biggestEdge enum accept tn order = none) ∧
      (g.spans enum ≠ [] → ∃ es o, biggestEdge enum accept tn order = some (es, o) ∧ es ≠ [] ∧
        es.length ≤ 10 ∧
        (∀ e ∈ es, ∃ n r, tn.fixAll.nodes.get? n = some r ∧ e ∈ r.legs) ∧
        ValidOrder tn.nodes.keys o last ∧ SingleAssignment tn.nodes.keys o ∧ Pairwise2 o) := by
  obtain ⟨c1, c2, c3, c4, c5, c6⟩ := c22_structure_partial hc
  have hk : tn.fixAll.nodes.keys = tn.nodes.keys := c2
  have hn : tn.nodes.keys.Nodup := (List.nodup_append'.1 hs).1
  obtain ⟨p, a1, a2, a3⟩ := c45_order_to_path hv hp hn
  obtain ⟨path, b1, b2⟩ := pairsOfPath_map (orderToPath_pairs a1)
  have hlen : tn.fixAll.subSets.1.length = tn.nodes.keys.length := by
    rw [← hk]
    simp [TN.subSets, Dict.keys]
  rw [← b2, ← hlen] at a2
  obtain ⟨g, d1, d2, _⟩ := c57_init (rhs := tn.fixAll.subSets.2) (by omega) a2
  have hpath : (orderToPath tn.nodes.keys order).bind pairsOfPath = some path := by rw [a1]; exact b1
  refine ⟨path, g, hpath, d1, d2, ?_⟩
  have hgood : Pick.Good tn.fixAll.subSets.1 tn.fixAll.subSets.2 (fun a => ∃ i < tn.fixAll.subSets.1.length, a ∈ tn.fixAll.subSets.1.getD i ∅)
      g.stem ⟨g, g.cost, [], []⟩ := ⟨⟨g, d2, Skel.refl g, fun _ _ => rfl⟩, rfl, by simp, by simp⟩
  obtain ⟨pk, e1, e2, e3, e4, e5⟩ := hgood.rounds (accept := accept) (ss := longest (g.spans enum)) fun s hs => by
    obtain ⟨k1, k2, k3⟩ := spans_sub he d2 (mem_longest hs)
    exact ⟨k1, k2, k3⟩
  have hun : biggestEdge enum accept tn order =
      (pk.result).bind fun r => match r.1.mapM fun s => tn.fixAll.edges.keys[s]?, renameSteps tn.nodes.keys r.2 order with
        | some es, some o => some (es, o)
        | _, _ => none := by
    unfold biggestEdge
    simp only [hk, hpath, d1, e1]
    cases pk.result with
    | none => rfl
    | some r => rfl
  constructor
  · intro hnil
    rw [hun]
    have : pk = ⟨g, g.cost, [], []⟩ := e4 (longest_nil.2 hnil)
    rw [this]
    rfl
  · intro hne
    obtain ⟨subs, pp, f1, f2, f3, f4, f5⟩ := e2.result (e3 (mt longest_nil.1 hne))
    have e6 : (longest (g.spans enum)).length ≤ 10 := List.length_take_le _ _
    obtain ⟨es, g1, g2, g3⟩ := mapM_option_ex (f := fun s => tn.fixAll.edges.keys[s]?)
      (P := fun _ e => ∃ n r, tn.fixAll.nodes.get? n = some r ∧ e ∈ r.legs) (l := subs) fun a ha => by
      obtain ⟨i, i1, i2⟩ := f3 a ha
      have i1' : i < tn.fixAll.nodes.length := by simpa [TN.subSets] using i1
      have : tn.fixAll.subSets.1.getD i ∅ = (tn.fixAll.nodes[i].2.legs.map fun e => tn.fixAll.edges.keys.idxOf e).toFinset := by
        rw [getD_lt i1]
        simp [TN.subSets]
      rw [this, List.mem_toFinset, List.mem_map] at i2
      obtain ⟨e, he1, rfl⟩ := i2
      have hm : (tn.fixAll.nodes[i].1, tn.fixAll.nodes[i].2) ∈ tn.fixAll.nodes := List.getElem_mem i1'
      have hg := Dict.get?_of_mem c6.nodes_nodup hm
      exact ⟨e, List.getElem?_idxOf (c6.legs_exist _ _ hg e he1), _, _, hg, he1⟩
    rw [hlen] at f4
    have hl := pairs_path f4
    have hl2 : path.length + 1 = tn.nodes.keys.length := by rw [← hlen]; exact pairs_path a2
    have hl3 : path.length = p.length := by rw [← b2]; simp
    obtain ⟨o, o1, o2, o3, o4⟩ := renameSteps_spec f4 (order := order) (by omega) hs hv.getLast
    refine ⟨es, o, ?_, ?_, ?_, fun e he => ?_, o2, ?_, o3⟩
    · rw [hun, f1]
      simp only [Option.bind_some, g1, o1]
    · intro h
      rw [h] at g2
      exact f2 (List.length_eq_zero_iff.1 g2.symm)
    · simp only [List.length_nil] at e5
      omega
    · obtain ⟨_, _, _, h⟩ := g3 e he
      exact h
    · unfold SingleAssignment at hs ⊢
      rw [o4]
      exact hs

/-- slicer.py:62-64: fixing edges and taking them out. -/
theorem fixSlices_spec {es : List Nm} : ∀ {tn : TN τ}, tn.Consistent →
    (∀ e ∈ es, ∃ r d, tn.edges.get? e = some r ∧ r.dim = some d ∧ 0 < d) →
    ∃ tn1, tn.fixSlices es = some tn1 ∧ tn1.Consistent ∧ tn1.nodes.keys = tn.nodes.keys ∧
      (∀ n r1, tn1.nodes.get? n = some r1 → ∃ r, tn.nodes.get? n = some r ∧
        ∀ e ∈ r1.legs, e ∈ r.legs ∧ e ∉ es ∧ ¬ ∃ l, tn.FixedTo e l) ∧
      ∀ e, e ∉ es → ∀ r, tn1.edges.get? e = some r → tn.edges.get? e = some r := by
  induction es with
  | nil =>
    intro tn hc _
    obtain ⟨c1, c2, c3, c4, c5, c6⟩ := c22_structure_partial hc
    refine ⟨_, rfl, c6, c2, fun n r1 hr => ?_, fun e _ r he => c5 e r he⟩
    have : n ∈ tn.nodes.keys := by rw [← c2]; exact Dict.mem_keys_of_get? hr
    obtain ⟨r, hr'⟩ := Dict.exists_get? this
    obtain ⟨r2, k1, _, _, k4⟩ := c1 n r hr'
    rw [hr, Option.some.injEq] at k1
    subst k1
    exact ⟨r, hr', fun e he => ⟨((k4 e).1 he).1, by simp, ((k4 e).1 he).2⟩⟩
  | cons e es ih =>
    intro tn hc he
    obtain ⟨r, d, k1, k2, k3⟩ := he e List.mem_cons_self
    obtain ⟨tn', h1⟩ := TN.fixEdge_total (vals := [0]) k1 k2 (by simpa using k3)
    obtain ⟨r0, r', d', a1, a2, a3, a4, a5, a6, _⟩ := TN.fixEdge_dom h1
    have hc' : tn'.Consistent := by
      have := hc.fixEdge e [0] false
      rw [h1] at this
      exact this
    have hE : ∀ e', e' ≠ e → tn'.edges.get? e' = tn.edges.get? e' := fun e' hne => by
      rw [a4]
      rw [Dict.get?_set, if_neg (Ne.symm hne)]
    have hEe : tn'.edges.get? e = some r' := by
      rw [a4]
      rw [Dict.get?_set, if_pos rfl]
    obtain ⟨tn1, b1, b2, b3, b4, b5⟩ := ih hc' fun e' he' => by
      by_cases hee : e' = e
      · rw [hee, hEe]
        rw [k1, Option.some.injEq] at a1
        subst a1
        rw [k2, Option.some.injEq] at a2
        subst a2
        exact ⟨r', d, rfl, a5, k3⟩
      · rw [hE e' hee]
        exact he e' (List.mem_cons_of_mem _ he')
    have hn : tn'.nodes = tn.nodes := by rw [a4]
    refine ⟨tn1, ?_, b2, by rw [b3, hn], fun n r1 hr => ?_, fun e' he' rr hrr => ?_⟩
    · unfold TN.fixSlices
      rw [h1]
      exact b1
    · obtain ⟨r2, c1, c2⟩ := b4 n r1 hr
      rw [hn] at c1
      refine ⟨r2, c1, fun e' he' => ?_⟩
      obtain ⟨d1, d2, d3⟩ := c2 e' he'
      have hne : e' ≠ e := by
        rintro rfl
        obtain ⟨l, hl⟩ := Option.isSome_iff_exists.1 a6
        exact d3 ⟨l, r', hEe, hl⟩
      refine ⟨d1, by simp [hne, d2], fun ⟨l, r3, f1, f2⟩ => d3 ⟨l, r3, by rw [hE e' hne]; exact f1, f2⟩⟩
    · rw [List.mem_cons, not_or] at he'
      rw [← hE e' he'.1]
      exact b5 e' he'.2 rr hrr

end Verif
