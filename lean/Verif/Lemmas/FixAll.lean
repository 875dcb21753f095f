import Verif.Lemmas.Consistent
/-! # Helper lemmas: the effect of `fix()` -/

namespace Verif

namespace TN

variable {τ : Type}

/-- The edge exists and is fixed. -/
def isFixed (tn : TN τ) (e : Nm) : Bool :=
  match tn.edges.get? e with
  | some r => r.fix.isSome
  | none => false

theorem isFixed_iff {tn : TN τ} {e : Nm} : tn.isFixed e = true ↔ ∃ r l, tn.edges.get? e = some r ∧ r.fix = some l := by
  unfold isFixed
  split
  · next r hr => rw [Option.isSome_iff_exists, hr]; simp
  · next hr => rw [hr]; simp

/-- `t` is `tn` after processing the edges in `l`. -/
structure FixedBy (tn t : TN τ) (l : List Nm) : Prop where
  nodes : t.nodes.map (fun p => (p.1, p.2.legs, p.2.ten)) =
    tn.nodes.map fun p => (p.1, p.2.legs.filter (fun e => !(decide (e ∈ l) && tn.isFixed e)), p.2.ten)
  edges : t.edges = tn.edges.filterKeys fun e => !(decide (e ∈ l) && tn.isFixed e && decide (e ∉ tn.openE))
  opn : t.openE = tn.openE
  cons : t.Consistent

theorem dropLeg_nodes {t : TN τ} (hc : t.Consistent) (e : Nm) :
    (t.nodes.mapIf (t.nodeOfEdges [e]) (dropLeg e)).map (fun p => (p.1, p.2.legs, p.2.ten)) =
      (t.nodes.map fun p => (p.1, p.2.legs, p.2.ten)).map fun q => (q.1, q.2.1.filter (· ≠ e), q.2.2) := by
  unfold Dict.mapIf
  rw [List.map_map, List.map_map]
  refine List.map_congr_left fun p hp => ?_
  simp only [Function.comp]
  split
  · rfl
  · next hne =>
    have hg := Dict.get?_of_mem hc.nodes_nodup hp
    have : e ∉ p.2.legs := fun hm => hne (nodeOfEdges_iff.2 ⟨e, by simp, (hc.adj_iff p.1 e).2 ⟨p.2, hg, hm⟩⟩)
    rw [List.filter_eq_self.2]
    intro a ha
    simp only [ne_eq, decide_not, Bool.not_eq_true', decide_eq_false_iff_not]
    rintro rfl; exact this ha

theorem FixedBy.step {tn t : TN τ} {l : List Nm} (h : FixedBy tn t l) {e : Nm} (he : e ∉ l) :
    FixedBy tn (t.fix1 e) (e :: l) := by
  have hget : t.edges.get? e = tn.edges.get? e := by
    rw [h.edges, Dict.get?_filterKeys]
    simp [he]
  have hcons := h.cons.fix1 e
  have hbase : ∀ e', (!(decide (e' ∈ e :: l) && tn.isFixed e')) =
      (!(decide (e' ∈ l) && tn.isFixed e') && !(decide (e' = e) && tn.isFixed e')) := by
    intro e'
    by_cases h1 : e' = e <;> by_cases h2 : e' ∈ l <;> cases tn.isFixed e' <;> simp [h1, h2]
  unfold fix1 at hcons ⊢
  rw [hget] at hcons ⊢
  cases hr : tn.edges.get? e with
  | none =>
    rw [hr] at hcons
    have hnf : tn.isFixed e = false := by unfold isFixed; rw [hr]
    have hsame : ∀ e', (decide (e' ∈ e :: l) && tn.isFixed e') = (decide (e' ∈ l) && tn.isFixed e') := by
      intro e'
      by_cases h1 : e' = e
      · subst h1; simp [hnf]
      · simp [h1]
    exact ⟨by simp only [hsame]; exact h.nodes, by simp only [hsame]; exact h.edges, h.opn, hcons⟩
  | some r =>
    obtain ⟨d, f⟩ := r
    cases f with
    | none =>
      rw [hr] at hcons
      have hnf : tn.isFixed e = false := by unfold isFixed; rw [hr]; rfl
      have hsame : ∀ e', (decide (e' ∈ e :: l) && tn.isFixed e') = (decide (e' ∈ l) && tn.isFixed e') := by
        intro e'
        by_cases h1 : e' = e
        · subst h1; simp [hnf]
        · simp [h1]
      exact ⟨by simp only [hsame]; exact h.nodes, by simp only [hsame]; exact h.edges, h.opn, hcons⟩
    | some vals =>
      rw [hr] at hcons
      have hf : tn.isFixed e = true := by unfold isFixed; rw [hr]; rfl
      have hnodes : (t.nodes.mapIf (t.nodeOfEdges [e]) (dropLeg e)).map (fun p => (p.1, p.2.legs, p.2.ten)) =
          tn.nodes.map fun p =>
            (p.1, p.2.legs.filter (fun e' => !(decide (e' ∈ e :: l) && tn.isFixed e')), p.2.ten) := by
        rw [dropLeg_nodes h.cons, h.nodes, List.map_map]
        refine List.map_congr_left fun p _ => ?_
        simp only [Function.comp, List.filter_filter, Prod.mk.injEq, and_true, true_and]
        refine List.filter_congr fun e' _ => ?_
        rw [hbase]
        by_cases h1 : e' = e
        · subst h1; simp [hf]
        · simp [h1]
      dsimp only at hcons ⊢
      by_cases ho : e ∈ t.openE
      · rw [if_pos ho] at hcons ⊢
        refine ⟨hnodes, ?_, h.opn, hcons⟩
        show t.edges = _
        rw [h.edges]
        unfold Dict.filterKeys
        refine List.filter_congr fun p _ => ?_
        by_cases h1 : p.1 = e
        · rw [h1, ← h.opn]; simp [ho]
        · simp [h1]
      · rw [if_neg ho] at hcons ⊢
        refine ⟨hnodes, ?_, h.opn, hcons⟩
        show t.edges.del e = _
        rw [h.edges]
        unfold Dict.filterKeys Dict.del
        rw [List.filter_filter]
        refine List.filter_congr fun p _ => ?_
        rw [h.opn] at ho
        by_cases h1 : p.1 = e
        · rw [h1]; simp [ho, hf]
        · simp [h1]

theorem fixAll_spec {tn : TN τ} (hc : tn.Consistent) :
    (tn.fixAll).nodes.map (fun p => (p.1, p.2.legs, p.2.ten)) =
      tn.nodes.map (fun p => (p.1, p.2.legs.filter (fun e => !tn.isFixed e), p.2.ten)) ∧
    (tn.fixAll).edges = tn.edges.filterKeys (fun e => !(tn.isFixed e && decide (e ∉ tn.openE))) ∧
    (tn.fixAll).openE = tn.openE ∧ (tn.fixAll).Consistent := by
  have key : ∀ (ks l : List Nm) (t : TN τ), ks.Nodup → (∀ e ∈ ks, e ∉ l) → FixedBy tn t l →
      ∃ l', (∀ e, e ∈ l' ↔ e ∈ l ∨ e ∈ ks) ∧ FixedBy tn (ks.foldl fix1 t) l' := by
    intro ks
    induction ks with
    | nil => intro l t _ _ h; exact ⟨l, by simp, h⟩
    | cons k ks ih =>
      intro l t hnd hd h
      rw [List.nodup_cons] at hnd
      obtain ⟨l', h1, h2⟩ := ih (k :: l) (t.fix1 k) hnd.2
        (fun e he hm => by
          rcases List.mem_cons.1 hm with rfl | hm
          · exact hnd.1 he
          · exact hd e (by simp [he]) hm) (h.step (hd k (by simp)))
      exact ⟨l', fun e => by rw [h1]; simp; tauto, h2⟩
  obtain ⟨l', h1, h2⟩ := key tn.edges.keys [] tn hc.edges_nodup (by simp) ⟨by simp, by
    simp [Dict.filterKeys], rfl, hc⟩
  have hsame : ∀ e, (decide (e ∈ l') && tn.isFixed e) = tn.isFixed e := by
    intro e
    cases hf : tn.isFixed e with
    | false => simp
    | true =>
      obtain ⟨r, l, hr, _⟩ := isFixed_iff.1 hf
      have : e ∈ l' := (h1 e).2 (Or.inr (Dict.mem_keys_of_get? hr))
      simp [this]
  refine ⟨?_, ?_, h2.opn, h2.cons⟩
  · rw [show tn.fixAll = tn.edges.keys.foldl fix1 tn from rfl, h2.nodes]
    simp only [hsame]
  · rw [show tn.fixAll = tn.edges.keys.foldl fix1 tn from rfl, h2.edges]
    simp only [hsame]

end TN

end Verif
