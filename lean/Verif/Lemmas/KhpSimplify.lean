import Verif.Lemmas.Khp
import Verif.Lemmas.Encaps
/-!
# Lemmas about the simplification before the hypergraph partition
-/

namespace Verif

variable {τ : Type}

/-! ## The pair to be merged -/

theorem mem_combos2 {α : Type} {p : α × α} : ∀ {l : List α}, p ∈ combos2 l → l.Nodup → p.1 ≠ p.2 ∧ p.1 ∈ l ∧ p.2 ∈ l := by
  intro l
  induction l with
  | nil => simp [combos2]
  | cons x l ih =>
    intro h hn
    rw [combos2, List.mem_append, List.mem_map] at h
    rw [List.nodup_cons] at hn
    rcases h with ⟨y, hy, rfl⟩ | h
    · exact ⟨fun hc => hn.1 (by rw [show x = y from hc]; exact hy), by simp, by simp [hy]⟩
    · obtain ⟨h1, h2, h3⟩ := ih h hn.2
      exact ⟨h1, by simp [h2], by simp [h3]⟩

theorem combos2_complete {α : Type} {a b : α} : ∀ {l : List α}, a ∈ l → b ∈ l → a ≠ b → (a, b) ∈ combos2 l ∨ (b, a) ∈ combos2 l := by
  intro l
  induction l with
  | nil => simp
  | cons x l ih =>
    intro ha hb hab
    rw [combos2, List.mem_append, List.mem_append, List.mem_map, List.mem_map]
    rcases List.mem_cons.1 ha with rfl | ha <;> rcases List.mem_cons.1 hb with rfl | hb
    · exact absurd rfl hab
    · exact Or.inl (Or.inl ⟨b, hb, rfl⟩)
    · exact Or.inr (Or.inl ⟨a, by assumption, rfl⟩)
    · rcases ih ha hb hab with h | h
      · exact Or.inl (Or.inr h)
      · exact Or.inr (Or.inr h)

theorem TN.Consistent.adjOfEdge_nodup {tn : TN τ} (h : tn.Consistent) (e : Nm) : (tn.adjOfEdge e).Nodup := by
  unfold TN.adjOfEdge
  refine (h.adj_nodup.filter _).map_on ?_
  rintro ⟨a, b⟩ ha ⟨c, d⟩ hc hac
  have h1 : b = e := by simpa using (List.mem_filter.1 ha).2
  have h2 : d = e := by simpa using (List.mem_filter.1 hc).2
  simp only at hac
  rw [h1, h2, hac]

theorem TN.Consistent.adjOfNode_nodup {tn : TN τ} (h : tn.Consistent) (n : Nm) : (tn.adjOfNode n).Nodup := by
  unfold TN.adjOfNode
  refine (h.adj_nodup.filter _).map_on ?_
  rintro ⟨a, b⟩ ha ⟨c, d⟩ hc hac
  have h1 : a = n := by simpa using (List.mem_filter.1 ha).2
  have h2 : c = n := by simpa using (List.mem_filter.1 hc).2
  simp only at hac
  rw [h1, h2, hac]

theorem TN.Consistent.adj_node {tn : TN τ} (h : tn.Consistent) {n e : Nm} (ha : (n, e) ∈ tn.adj) : n ∈ tn.nodes.keys := by
  obtain ⟨r, hr, _⟩ := (h.adj_iff n e).1 ha
  exact Dict.mem_keys_of_get? hr

theorem TN.Consistent.adj_edge {tn : TN τ} (h : tn.Consistent) {n e : Nm} (ha : (n, e) ∈ tn.adj) : e ∈ tn.edges.keys := by
  obtain ⟨r, hr, he⟩ := (h.adj_iff n e).1 ha
  exact h.legs_exist n r hr e he

/-- The pair found: two nodes with a common edge. -/
theorem TN.mergeable_some {tn : TN τ} (hc : tn.Consistent) {a b : Nm} (h : tn.mergeable = some (a, b)) :
    a ≠ b ∧ a ∈ tn.nodes.keys ∧ b ∈ tn.nodes.keys ∧ tn.shrinks (a, b) = true ∧ ∃ e, (a, e) ∈ tn.adj ∧ (b, e) ∈ tn.adj := by
  obtain ⟨e, _, he⟩ := List.exists_of_findSome?_eq_some h
  obtain ⟨h1, h2, h3⟩ := mem_combos2 (List.mem_of_find?_eq_some he) (hc.adjOfEdge_nodup e)
  rw [TN.mem_adjOfEdge] at h2 h3
  exact ⟨h1, hc.adj_node h2, hc.adj_node h3, by simpa using List.find?_some he, e, h2, h3⟩

/-- No pair found: no two neighbours are worth merging. -/
theorem TN.mergeable_none {tn : TN τ} (hc : tn.Consistent) (h : tn.mergeable = none) {a b e : Nm} (hab : a ≠ b)
    (ha : (a, e) ∈ tn.adj) (hb : (b, e) ∈ tn.adj) : tn.shrinks (a, b) = false ∨ tn.shrinks (b, a) = false := by
  have h1 := List.findSome?_eq_none_iff.1 h e (hc.adj_edge ha)
  rw [List.find?_eq_none] at h1
  rcases combos2_complete (TN.mem_adjOfEdge.2 ha) (TN.mem_adjOfEdge.2 hb) hab with h2 | h2
  · exact Or.inl (by simpa using h1 _ h2)
  · exact Or.inr (by simpa using h1 _ h2)

/-! ## The rounds -/

/-- One round: names. -/
theorem encapsulate_two [NetTensor τ] {tn tn' : TN τ} {a b z n : Nm} (hz : z ∉ tn.nodes.keys) {ident : Nm}
    (hn : tn.nodes.keys.Nodup) (h : tn.encapsulate [a, b] (tn.boundaryOfNodes [a, b]) (some z) ident = (tn', .ok n)) :
    n = z ∧ a ≠ b ∧ ∃ rest, tn.nodes.keys.Perm ([a, b] ++ rest) ∧ z ∉ rest ∧ tn'.nodes.keys = rest ++ [z] := by
  obtain ⟨h1, h2, h3, h4, h5⟩ := encapsulate_names (by simp) h
  simp only [Option.getD_some] at h1
  subst h1
  have hab : a ≠ b := by simpa using h2
  refine ⟨rfl, hab, _, ?_, h4, h5⟩
  have hp : (tn.nodes.keys.filter fun m => [a, b].contains m).Perm [a, b] := by
    refine (List.perm_ext_iff_of_nodup (hn.filter _) h2).2 fun x => ?_
    rw [List.mem_filter]
    constructor
    · rintro ⟨_, hx⟩
      simpa using hx
    · exact fun hx => ⟨h3 x hx, by simpa using hx⟩
  refine List.Perm.trans ?_ (hp.append_right _)
  exact (List.filter_append_perm _ _).symm

theorem khpSimplify_spec [NetTensor τ] : ∀ (fuel : Nat) {tn tn' : TN τ} {k k' : Int} {o : List OrderStep}, tn.Consistent →
    (∀ j, k ≤ j → freshName j ∉ tn.nodes.keys) → khpSimplify fuel tn k = some (tn', o, k') →
    tn'.Consistent ∧ k' = k + o.length ∧ o.map (·.2) = freshNames k o.length ∧ Pairwise2 o ∧
      Runs tn.nodes.keys o tn'.nodes.keys ∧ tn.nodes.keys.length = tn'.nodes.keys.length + o.length ∧
      (o ≠ [] → freshName (k' - 1) ∈ tn'.nodes.keys) ∧ (∀ j, k' ≤ j → freshName j ∉ tn'.nodes.keys) ∧
      (tn.nodes.keys.length ≤ fuel → tn'.mergeable = none) := by
  intro fuel
  induction fuel with
  | zero =>
    intro tn tn' k k' o hc hf h
    simp only [khpSimplify, Option.some.injEq, Prod.mk.injEq] at h
    obtain ⟨rfl, rfl, rfl⟩ := h
    refine ⟨hc, by simp, rfl, by simp [Pairwise2], .nil (List.Perm.refl _), rfl, by simp, hf, fun hl => ?_⟩
    match hm : tn.mergeable with
    | none => rfl
    | some (a, b) =>
      have := (TN.mergeable_some hc hm).2.1
      rw [List.length_eq_zero_iff.1 (Nat.le_zero.1 hl)] at this
      simp at this
  | succ fuel ih =>
    intro tn tn' k k' o hc hf h
    rw [khpSimplify] at h
    split at h
    · next hm =>
      simp only [Option.some.injEq, Prod.mk.injEq] at h
      obtain ⟨rfl, rfl, rfl⟩ := h
      exact ⟨hc, by simp, rfl, by simp [Pairwise2], .nil (List.Perm.refl _), rfl, by simp, hf, fun _ => hm⟩
    · next a b hm =>
      split at h
      · simp at h
      · next t1 n he =>
        obtain ⟨⟨t2, o2, k2⟩, h1, h2⟩ := Option.map_eq_some_iff.1 h
        simp only [Prod.mk.injEq] at h2
        obtain ⟨rfl, rfl, rfl⟩ := h2
        obtain ⟨rfl, hab, rest, e1, e2, e3⟩ := encapsulate_two (hf k le_rfl) hc.nodes_nodup he
        have hf1 : ∀ j, k + 1 ≤ j → freshName j ∉ t1.nodes.keys := by
          intro j hj hm
          rw [e3, List.mem_append, List.mem_singleton] at hm
          rcases hm with hm | hm
          · exact hf j (by omega) (e1.symm.subset (List.mem_append_right _ hm))
          · have := freshName_inj hm
            omega
        obtain ⟨c1, c2, c3, c4, c5, c6, c7, c8, c9⟩ := ih (hc.encapsulate (by simp) he) hf1 h1
        have hlen : tn.nodes.keys.length = t1.nodes.keys.length + 1 := by
          rw [e1.length_eq, e3]
          simp
        refine ⟨c1, ?_, ?_, ?_, ?_, ?_, ?_, c8, ?_⟩
        · rw [c2, List.length_cons]
          push_cast
          omega
        · rw [List.map_cons, c3, List.length_cons, freshNames_succ]
        · intro s hs
          rcases List.mem_cons.1 hs with rfl | hs
          · rfl
          · exact c4 s hs
        · refine .cons e1 (by simp) e2 (c5.permL ?_)
          rw [e3]
          exact List.perm_append_singleton _ _
        · rw [List.length_cons, hlen, c6]
          omega
        · intro _
          cases o2 with
          | nil =>
            have hk : t2.nodes.keys.Perm t1.nodes.keys := by
              cases c5 with
              | nil hp => exact hp.symm
            refine hk.symm.subset ?_
            rw [e3, c2]
            simp
          | cons s o2 => exact c7 (by simp)
        · intro hl
          exact c9 (by omega)

/-- With known dimensions and no fixed edge the simplification succeeds, and leaves the value as it is. -/
theorem khpSimplify_total [NetTensor τ] : ∀ (fuel : Nat) (tn : TN τ) (k : Int), tn.Consistent → tn.Ready → NoFix tn →
    (∀ j, k ≤ j → freshName j ∉ tn.nodes.keys) → ∃ r, khpSimplify fuel tn k = some r := by
  intro fuel
  induction fuel with
  | zero => exact fun tn k _ _ _ _ => ⟨_, rfl⟩
  | succ fuel ih =>
    intro tn k hc hr hx hf
    rw [khpSimplify]
    split
    · exact ⟨_, rfl⟩
    · next a b hm =>
      obtain ⟨hab, ha, hb, _⟩ := TN.mergeable_some hc hm
      obtain ⟨t1, h1⟩ := encapsulate_total (z := freshName k) (ident := freshName k) hc hr (ns := [a, b]) (by simpa using hab)
        (by simp [ha, hb]) (hf k le_rfl)
      rw [h1]
      dsimp only
      obtain ⟨hr1, hx1⟩ := encapsulate_ready hc hr (by simp) h1
      obtain ⟨_, _, rest, e1, e2, e3⟩ := encapsulate_two (hf k le_rfl) hc.nodes_nodup h1
      obtain ⟨r, h2⟩ := ih t1 (k + 1) (hc.encapsulate (by simp) h1) hr1 (hx1 hx) (by
        intro j hj hm
        rw [e3, List.mem_append, List.mem_singleton] at hm
        rcases hm with hm | hm
        · exact hf j (by omega) (e1.symm.subset (List.mem_append_right _ hm))
        · have := freshName_inj hm
          omega)
      rw [h2]
      exact ⟨_, rfl⟩

theorem khpSimplify_value {R : Type} [CommSemiring R] [NetTensor τ] {val : τ → List Nat → R}
    (hval : ∀ t : TN τ, val (NetTensor.ofNet t) = t.value val) : ∀ (fuel : Nat) {tn tn' : TN τ} {k k' : Int}
    {o : List OrderStep}, tn.Consistent → tn.Ready → NoFix tn → khpSimplify fuel tn k = some (tn', o, k') →
    tn'.Ready ∧ NoFix tn' ∧ ∀ idx, tn'.value val idx = tn.value val idx := by
  intro fuel
  induction fuel with
  | zero =>
    intro tn tn' k k' o hc hr hx h
    simp only [khpSimplify, Option.some.injEq, Prod.mk.injEq] at h
    obtain ⟨rfl, rfl, rfl⟩ := h
    exact ⟨hr, hx, fun _ => rfl⟩
  | succ fuel ih =>
    intro tn tn' k k' o hc hr hx h
    rw [khpSimplify] at h
    split at h
    · simp only [Option.some.injEq, Prod.mk.injEq] at h
      obtain ⟨rfl, rfl, rfl⟩ := h
      exact ⟨hr, hx, fun _ => rfl⟩
    · next a b hm =>
      split at h
      · simp at h
      · next t1 n he =>
        obtain ⟨⟨t2, o2, k2⟩, h1, h2⟩ := Option.map_eq_some_iff.1 h
        simp only [Prod.mk.injEq] at h2
        obtain ⟨rfl, rfl, rfl⟩ := h2
        obtain ⟨hr1, hx1⟩ := encapsulate_ready hc hr (by simp) he
        obtain ⟨g1, g2, g3⟩ := ih (hc.encapsulate (by simp) he) hr1 (hx1 hx) h1
        exact ⟨g1, g2, fun idx => by rw [g3, (encapsulate_value hval hc hr (hx.boundary _) (by simp) he).1 idx]⟩

theorem khpSimplify_noFix [NetTensor τ] : ∀ (fuel : Nat) {tn tn' : TN τ} {k k' : Int}
    {o : List OrderStep}, tn.Consistent → tn.Ready → NoFix tn → khpSimplify fuel tn k = some (tn', o, k') → NoFix tn' := by
  intro fuel
  induction fuel with
  | zero =>
    intro tn tn' k k' o hc hr hx h
    simp only [khpSimplify, Option.some.injEq, Prod.mk.injEq] at h
    obtain ⟨rfl, rfl, rfl⟩ := h
    exact hx
  | succ fuel ih =>
    intro tn tn' k k' o hc hr hx h
    rw [khpSimplify] at h
    split at h
    · simp only [Option.some.injEq, Prod.mk.injEq] at h
      obtain ⟨rfl, rfl, rfl⟩ := h
      exact hx
    · next a b hm =>
      split at h
      · simp at h
      · next t1 n he =>
        obtain ⟨⟨t2, o2, k2⟩, h1, h2⟩ := Option.map_eq_some_iff.1 h
        simp only [Prod.mk.injEq] at h2
        obtain ⟨rfl, rfl, rfl⟩ := h2
        obtain ⟨hr1, hx1⟩ := encapsulate_ready hc hr (by simp) he
        exact ih (hc.encapsulate (by simp) he) hr1 (hx1 hx) h1

/-- The public method. -/
theorem TN.simplify_value {R : Type} [CommSemiring R] [NetTensor τ] {val : τ → List Nat → R}
    (hval : ∀ t : TN τ, val (NetTensor.ofNet t) = t.value val) {ident : Nat → Nm} (hi : ∀ i j, ident i = ident j → i = j) :
    ∀ (fuel i : Nat) {tn : TN τ}, tn.Consistent → tn.Ready → NoFix tn → (∀ j, i ≤ j → ident j ∉ tn.nodes.keys) →
    ∃ tn', tn.simplify ident fuel i = some tn' ∧ tn'.Consistent ∧ (∀ idx, tn'.value val idx = tn.value val idx) ∧
      tn'.nodes.keys.length ≤ tn.nodes.keys.length ∧ (tn.nodes.keys.length ≤ fuel → tn'.mergeable = none) := by
  intro fuel
  induction fuel with
  | zero =>
    intro i tn hc hr hx hf
    refine ⟨tn, rfl, hc, fun _ => rfl, le_rfl, fun hl => ?_⟩
    match hm : tn.mergeable with
    | none => rfl
    | some (a, b) =>
      have := (TN.mergeable_some hc hm).2.1
      rw [List.length_eq_zero_iff.1 (Nat.le_zero.1 hl)] at this
      simp at this
  | succ fuel ih =>
    intro i tn hc hr hx hf
    rw [TN.simplify]
    split
    · next hm => exact ⟨tn, rfl, hc, fun _ => rfl, le_rfl, fun _ => hm⟩
    · next a b hm =>
      obtain ⟨hab, ha, hb, _⟩ := TN.mergeable_some hc hm
      obtain ⟨t1, h1⟩ := encapsulate_total (z := ident i) (ident := ident i) hc hr (ns := [a, b]) (by simpa using hab)
        (by simp [ha, hb]) (hf i le_rfl)
      obtain ⟨_, _, rest, e1, e2, e3⟩ := encapsulate_two (hf i le_rfl) hc.nodes_nodup h1
      have h1' : tn.encapsulate [a, b] (tn.boundaryOfNodes [a, b]) none (ident i) = (t1, .ok (ident i)) := by
        rw [← h1]
        unfold TN.encapsulate
        split
        · rfl
        · next stn hs =>
          unfold TN.addNode
          rw [show TN.nameTaken (tn.dropSub [a, b] (tn.closedOfNodes [a, b])) (some (ident i)) = false from Dict.has_eq_false.2 (by
            show ident i ∉ Dict.keys (tn.nodes.filterKeys fun m => !([a, b].contains m))
            rw [Dict.keys_filterKeys]
            exact fun hcon => hf i le_rfl (List.mem_filter.1 hcon).1)]
          rfl
      rw [h1']
      dsimp only
      obtain ⟨hr1, hx1⟩ := encapsulate_ready hc hr (by simp) h1
      obtain ⟨t2, g1, g2, g3, g4, g5⟩ := ih (i + 1) (hc.encapsulate (by simp) h1) hr1 (hx1 hx) (by
        intro j hj hm
        rw [e3, List.mem_append, List.mem_singleton] at hm
        rcases hm with hm | hm
        · exact hf j (by omega) (e1.symm.subset (List.mem_append_right _ hm))
        · have := hi _ _ hm
          omega)
      have hlen : tn.nodes.keys.length = t1.nodes.keys.length + 1 := by
        rw [e1.length_eq, e3]
        simp
      exact ⟨t2, g1, g2, fun idx => by rw [g3, (encapsulate_value hval hc hr (hx.boundary _) (by simp) h1).1 idx],
        by omega, fun hl => g5 (by omega)⟩

end Verif
