import Verif.Lemmas.FixAll
import Verif.Lemmas.Heap
import Verif.Spec.Canonical
import Verif.Spec.Slices
/-! # Helper lemmas: the networks built by `_generate_template` -/

set_option linter.unusedSectionVars false

namespace Verif

/-- What `edge_fix` returns for the edges fixed to one value. -/
def fixedEntries (es : Dict Nm EdgeRec) : List (Nm × List Nat × Nat) :=
  es.filterMap fun p => match p.2.fix with | some [v] => some (p.1, [v], v) | _ => none

/-- What `edge_fix` returns for the sliced edges. -/
def sliceEntries (split : List Nm) (es : Dict Nm EdgeRec) : List (Nm × List Nat × Nat) :=
  es.filterMap fun p => if p.1 ∈ split then some (p.1, List.range (p.2.dim.getD 0), 0) else none

theorem edgeFix_fixed {es : Dict Nm EdgeRec} (h : ∀ p ∈ es, ∀ l, p.2.fix = some l → ∃ v, l = [v]) :
    edgeFix [] es = .ok (some (fixedEntries es)) := by
  induction es with
  | nil => rfl
  | cons p es ih =>
    obtain ⟨e, d, f⟩ := p
    have ih' := ih fun p hp => h p (by simp [hp])
    unfold edgeFix fixedEntries
    rw [List.filterMap_cons, if_neg (by simp)]
    cases f with
    | none => dsimp only; rw [ih']; rfl
    | some l =>
      obtain ⟨v, rfl⟩ := h (e, ⟨d, some l⟩) (by simp) l rfl
      dsimp only
      rw [ih']; rfl

theorem edgeFix_slices {split : List Nm} {es : Dict Nm EdgeRec} (h1 : ∀ p ∈ es, p.2.fix = none)
    (h2 : ∀ p ∈ es, p.1 ∈ split → p.2.dim ≠ none) : edgeFix split es = .ok (some (sliceEntries split es)) := by
  induction es with
  | nil => rfl
  | cons p es ih =>
    obtain ⟨e, d, f⟩ := p
    have ih' := ih (fun p hp => h1 p (by simp [hp])) fun p hp => h2 p (by simp [hp])
    have hf : f = none := h1 (e, ⟨d, f⟩) (by simp)
    subst hf
    unfold edgeFix sliceEntries
    rw [List.filterMap_cons]
    by_cases hs : e ∈ split
    · rw [if_pos hs]
      have hd : d ≠ none := h2 (e, ⟨d, none⟩) (by simp) hs
      obtain ⟨d', rfl⟩ := Option.ne_none_iff_exists'.1 hd
      dsimp only
      rw [ih', if_pos hs]; rfl
    · rw [if_neg hs, if_neg hs]
      dsimp only
      rw [ih']; rfl

theorem mem_fixedEntries {es : Dict Nm EdgeRec} {x : Nm × List Nat × Nat} :
    x ∈ fixedEntries es ↔ ∃ d v, (x.1, (⟨d, some [v]⟩ : EdgeRec)) ∈ es ∧ x.2 = ([v], v) := by
  obtain ⟨e, vals, w⟩ := x
  unfold fixedEntries
  rw [List.mem_filterMap]
  constructor
  · rintro ⟨⟨e', d, f⟩, hp, hq⟩
    dsimp only at hq
    split at hq
    · next v =>
      simp only [Option.some.injEq, Prod.mk.injEq] at hq
      obtain ⟨rfl, rfl, rfl⟩ := hq
      exact ⟨d, v, hp, rfl⟩
    · simp at hq
  · rintro ⟨d, v, hp, heq⟩
    simp only [Prod.mk.injEq] at heq
    obtain ⟨rfl, rfl⟩ := heq
    exact ⟨_, hp, rfl⟩

theorem mem_sliceEntries {split : List Nm} {es : Dict Nm EdgeRec} {x : Nm × List Nat × Nat} :
    x ∈ sliceEntries split es ↔ ∃ r, (x.1, r) ∈ es ∧ x.1 ∈ split ∧ x.2 = (List.range (r.dim.getD 0), 0) := by
  obtain ⟨e, vals, w⟩ := x
  unfold sliceEntries
  rw [List.mem_filterMap]
  constructor
  · rintro ⟨⟨e', r⟩, hp, hq⟩
    dsimp only at hq
    split at hq
    · next hs =>
      simp only [Option.some.injEq, Prod.mk.injEq] at hq
      obtain ⟨rfl, rfl, rfl⟩ := hq
      exact ⟨r, hp, hs, rfl⟩
    · simp at hq
  · rintro ⟨r, hp, hs, heq⟩
    dsimp only at hp hs heq
    refine ⟨(e, r), hp, ?_⟩
    dsimp only
    rw [if_pos hs, ← heq]

theorem filterMap_keys_sublist {es : Dict Nm EdgeRec} {g : Nm × EdgeRec → Option (Nm × List Nat × Nat)}
    (hg : ∀ p q, g p = some q → q.1 = p.1) : ((es.filterMap g).map Prod.fst).Sublist es.keys := by
  induction es with
  | nil => simp
  | cons p es ih =>
    rw [List.filterMap_cons]
    show List.Sublist _ (p.1 :: Dict.keys es)
    cases hc : g p with
    | none => exact ih.cons _
    | some q =>
      dsimp only
      rw [List.map_cons, hg p q hc]
      exact ih.cons_cons _

theorem fixedEntries_nodup {es : Dict Nm EdgeRec} (h : es.keys.Nodup) : ((fixedEntries es).map Prod.fst).Nodup := by
  refine (filterMap_keys_sublist fun p q hq => ?_).nodup h
  split at hq
  · cases hq; rfl
  · simp at hq

theorem sliceEntries_nodup {split : List Nm} {es : Dict Nm EdgeRec} (h : es.keys.Nodup) :
    ((sliceEntries split es).map Prod.fst).Nodup := by
  refine (filterMap_keys_sublist fun p q hq => ?_).nodup h
  split at hq
  · cases hq; rfl
  · simp at hq

namespace TN

variable {τ : Type}

theorem adjOfEdge_isEmpty {tn : TN τ} (hc : tn.Consistent) {e : Nm} :
    (tn.adjOfEdge e).isEmpty = false ↔ ∃ n r, tn.nodes.get? n = some r ∧ e ∈ r.legs := by
  rw [Bool.eq_false_iff, ne_eq, List.isEmpty_iff]
  have hne : ¬ tn.adjOfEdge e = [] ↔ ∃ n, n ∈ tn.adjOfEdge e := by
    cases tn.adjOfEdge e <;> simp
  rw [hne]
  constructor
  · rintro ⟨n, hn⟩
    unfold adjOfEdge at hn
    simp only [List.mem_map, List.mem_filter, decide_eq_true_eq] at hn
    obtain ⟨⟨n', e'⟩, ⟨h1, rfl⟩, rfl⟩ := hn
    obtain ⟨r, hr⟩ := (hc.adj_iff _ _).1 h1
    exact ⟨_, r, hr⟩
  · rintro ⟨n, r, hr, he⟩
    refine ⟨n, ?_⟩
    unfold adjOfEdge
    simp only [List.mem_map, List.mem_filter, decide_eq_true_eq]
    exact ⟨(n, e), ⟨(hc.adj_iff n e).2 ⟨r, hr, he⟩, rfl⟩, rfl⟩

theorem Consistent.withOpen {tn : TN τ} (hc : tn.Consistent) {opn : List Nm} (h : ∀ e ∈ opn, e ∈ tn.edges.keys) :
    Consistent { tn with openE := opn } :=
  ⟨hc.nodes_nodup, hc.edges_nodup, hc.legs_exist, h, hc.adj_iff, hc.adj_nodup⟩

theorem Consistent.withEdges {tn : TN τ} (hc : tn.Consistent) {D : Dict Nm EdgeRec} (h : D.keys = tn.edges.keys) :
    Consistent { tn with edges := D } :=
  ⟨hc.nodes_nodup, by show D.keys.Nodup; rw [h]; exact hc.edges_nodup,
    fun n r hr e he => by show e ∈ D.keys; rw [h]; exact hc.legs_exist n r hr e he,
    fun e he => by show e ∈ D.keys; rw [h]; exact hc.open_exist e he, hc.adj_iff, hc.adj_nodup⟩

theorem Consistent.dropDangling {tn : TN τ} (hc : tn.Consistent) : tn.dropDangling.Consistent := by
  have hk : ∀ e, e ∈ (tn.edges.filterKeys fun e => !(tn.adjOfEdge e).isEmpty || tn.openE.contains e).keys ↔
      e ∈ tn.edges.keys ∧ ((∃ n r, tn.nodes.get? n = some r ∧ e ∈ r.legs) ∨ e ∈ tn.openE) := by
    intro e
    rw [Dict.keys_filterKeys, List.mem_filter, Bool.or_eq_true, Bool.not_eq_true', adjOfEdge_isEmpty hc]
    simp
  refine ⟨hc.nodes_nodup, ?_, fun n r hr e he => ?_, fun e he => ?_, hc.adj_iff, hc.adj_nodup⟩
  · unfold TN.dropDangling
    dsimp only
    rw [Dict.keys_filterKeys]
    exact hc.edges_nodup.filter _
  · exact (hk e).2 ⟨hc.legs_exist n r hr e he, Or.inl ⟨n, r, hr, he⟩⟩
  · exact (hk e).2 ⟨hc.open_exist e he, Or.inr he⟩

/-- The node table written as (name, legs, tensor) with filtered legs. -/
def LegsFiltered (tn t : TN τ) (c : Nm → Bool) : Prop :=
  t.nodes.map (fun p => (p.1, p.2.legs, p.2.ten)) = tn.nodes.map fun p => (p.1, p.2.legs.filter c, p.2.ten)

theorem LegsFiltered.keys {tn t : TN τ} {c : Nm → Bool} (h : LegsFiltered tn t c) : t.nodes.keys = tn.nodes.keys := by
  have := congrArg (List.map Prod.fst) h
  rw [List.map_map, List.map_map] at this
  exact this

theorem LegsFiltered.nodeLegs {tn t : TN τ} {c : Nm → Bool} (h : LegsFiltered tn t c) :
    t.nodeLegs = tn.nodes.map fun p => (p.1, p.2.legs.filter c) := by
  have := congrArg (List.map fun q : Nm × List Nm × Option τ => (q.1, q.2.1)) h
  rw [List.map_map, List.map_map] at this
  exact this

theorem LegsFiltered.trans {tn t s : TN τ} {c d : Nm → Bool} (h : LegsFiltered tn t c) (h' : LegsFiltered t s d) :
    LegsFiltered tn s fun e => c e && d e := by
  have := congrArg (List.map fun q : Nm × List Nm × Option τ => (q.1, q.2.1.filter d, q.2.2)) h
  rw [List.map_map, List.map_map] at this
  refine Eq.trans h' (Eq.trans this (List.map_congr_left fun p _ => ?_))
  simp only [Function.comp, List.filter_filter, Prod.mk.injEq, and_true, true_and]
  exact List.filter_congr fun e _ => Bool.and_comm _ _

theorem LegsFiltered.exists {tn t : TN τ} {c : Nm → Bool} (h : LegsFiltered tn t c) (hn : tn.nodes.keys.Nodup) {n : Nm}
    {r : NodeRec τ} (hr : tn.nodes.get? n = some r) :
    ∃ r', t.nodes.get? n = some r' ∧ r'.legs = r.legs.filter c ∧ r'.ten = r.ten := by
  have hm : (n, r.legs.filter c, r.ten) ∈ t.nodes.map (fun p => (p.1, p.2.legs, p.2.ten)) := by
    rw [h]; exact List.mem_map.2 ⟨(n, r), Dict.mem_of_get? hr, rfl⟩
  obtain ⟨⟨n', r'⟩, hp, heq⟩ := List.mem_map.1 hm
  simp only [Prod.mk.injEq] at heq
  obtain ⟨rfl, h1, h2⟩ := heq
  exact ⟨r', Dict.get?_of_mem (by rw [h.keys]; exact hn) hp, h1, h2⟩

theorem LegsFiltered.exists' {tn t : TN τ} {c : Nm → Bool} (h : LegsFiltered tn t c) (hn : tn.nodes.keys.Nodup) {n : Nm}
    {r : NodeRec τ} (hr : t.nodes.get? n = some r) :
    ∃ r', tn.nodes.get? n = some r' ∧ r.legs = r'.legs.filter c ∧ r.ten = r'.ten := by
  have hm : (n, r.legs, r.ten) ∈ tn.nodes.map (fun p => (p.1, p.2.legs.filter c, p.2.ten)) := by
    rw [← show _ = _ from h]; exact List.mem_map.2 ⟨(n, r), Dict.mem_of_get? hr, rfl⟩
  obtain ⟨⟨n', r'⟩, hp, heq⟩ := List.mem_map.1 hm
  simp only [Prod.mk.injEq] at heq
  obtain ⟨rfl, h1, h2⟩ := heq
  exact ⟨r', Dict.get?_of_mem hn hp, h1.symm, h2.symm⟩

/-- The network `tnc` of `_generate_template`. -/
def pruned (tn : TN τ) (split : List Nm) : TN τ := (fixAll { tn with openE := tn.openE ++ split }).dropDangling

theorem pruned_spec {tn : TN τ} {split : List Nm} (hc : tn.Consistent) (hs : SliceOK tn split)
    (hu : ∀ e ∈ tn.openE, ∀ r, tn.edges.get? e = some r → r.fix = none) :
    LegsFiltered tn (tn.pruned split) (fun e => !tn.isFixed e) ∧ (tn.pruned split).openE = tn.openE ++ split ∧
    (tn.pruned split).Consistent ∧
    (∀ p ∈ (tn.pruned split).edges, p ∈ tn.edges ∧ p.2.fix = none) ∧
    (∀ e r, tn.edges.get? e = some r → r.fix = none →
      ((∃ n r, tn.nodes.get? n = some r ∧ e ∈ r.legs) ∨ e ∈ tn.openE ∨ e ∈ split) →
      (tn.pruned split).edges.get? e = some r) := by
  have hs' : ∀ e ∈ split, e ∈ tn.edges.keys := fun e he => by
    obtain ⟨d, hd, _⟩ := hs.ok e he
    exact Dict.mem_keys_of_get? hd
  have hc1 : Consistent { tn with openE := tn.openE ++ split } := hc.withOpen fun e he => by
    rcases List.mem_append.1 he with h | h
    · exact hc.open_exist e h
    · exact hs' e h
  obtain ⟨h1, h2, h3, h4⟩ := fixAll_spec hc1
  have hfx : ∀ e, isFixed { tn with openE := tn.openE ++ split } e = tn.isFixed e := fun _ => rfl
  simp only [hfx] at h1 h2
  have hlegs : LegsFiltered tn (tn.pruned split) fun e => !tn.isFixed e := h1
  have hopen : ∀ e ∈ tn.openE ++ split, tn.isFixed e = false := by
    intro e he
    rw [Bool.eq_false_iff, ne_eq, isFixed_iff]
    rintro ⟨r, l, hr, hl⟩
    rcases List.mem_append.1 he with h | h
    · rw [hu e h r hr] at hl; simp at hl
    · obtain ⟨d, hd, _⟩ := hs.ok e h
      rw [hd] at hr; cases hr; simp at hl
  refine ⟨hlegs, h3, h4.dropDangling, ?_, ?_⟩
  · intro p hp
    have hp' := (List.mem_filter.1 hp).1
    rw [h2] at hp'
    obtain ⟨hp1, hp2⟩ := List.mem_filter.1 hp'
    refine ⟨hp1, ?_⟩
    have hg := Dict.get?_of_mem hc.edges_nodup hp1
    cases hf : p.2.fix with
    | none => rfl
    | some l =>
      have hfix : tn.isFixed p.1 = true := isFixed_iff.2 ⟨p.2, l, hg, hf⟩
      have hno : p.1 ∉ tn.openE ++ split := fun hm => by rw [hopen _ hm] at hfix; simp at hfix
      dsimp only at hp2
      rw [hfix, decide_eq_true hno] at hp2
      simp at hp2
  · intro e r hr hf hatt
    have hnf : tn.isFixed e = false := by
      rw [Bool.eq_false_iff, ne_eq, isFixed_iff]
      rintro ⟨r', l, hr', hl⟩
      rw [hr] at hr'; cases hr'; rw [hf] at hl; simp at hl
    unfold pruned TN.dropDangling
    dsimp only
    rw [Dict.get?_filterKeys, if_pos, h2, Dict.get?_filterKeys, if_pos (by simp [hnf]), hr]
    rw [Bool.or_eq_true, Bool.not_eq_true', adjOfEdge_isEmpty h4]
    rcases hatt with ⟨n, r, hn, he⟩ | h | h
    · obtain ⟨r', hr', hl', _⟩ := hlegs.exists hc.nodes_nodup hn
      exact Or.inl ⟨n, r', hr', by rw [hl', List.mem_filter]; exact ⟨he, by simp [hnf]⟩⟩
    · right; rw [h3]; simp [h]
    · right; rw [h3]; simp [h]

theorem pinAll_spec {split : List Nm} {t : TN τ} (h : ∀ e ∈ split, ∃ d l, t.edges.get? e = some ⟨some d, some l⟩ ∧ 0 < d) :
    ∃ t' : TN τ, forLoop (fun t e => TN.fixEdge t e [0]) split t = (t', .ok ()) ∧ t'.nodes = t.nodes ∧ t'.adj = t.adj ∧
      t'.openE = t.openE ∧ t'.edges.keys = t.edges.keys ∧ ∀ e, t'.isFixed e = t.isFixed e := by
  induction split generalizing t with
  | nil => exact ⟨t, rfl, rfl, rfl, rfl, rfl, fun _ => rfl⟩
  | cons e es ih =>
    obtain ⟨d, l, hd, hpos⟩ := h e (by simp)
    have hstep : TN.fixEdge t e [0] =
        ({ t with edges := t.edges.set e ⟨some d, some (l.filter (· ∈ [0]))⟩ }, .ok ()) := by
      unfold TN.fixEdge
      rw [hd]
      simp [hpos]
    have hk : (t.edges.set e ⟨some d, some (l.filter (· ∈ [0]))⟩).keys = t.edges.keys := by
      rw [Dict.keys_set, if_pos (Dict.mem_keys_of_get? hd)]
    obtain ⟨t', h1, h2, h3, h4, h5, h6⟩ := ih (t := { t with edges := t.edges.set e ⟨some d, some (l.filter (· ∈ [0]))⟩ })
      fun e' he' => by
        show ∃ d l, Dict.get? (Dict.set _ _ _) e' = _ ∧ _
        rw [Dict.get?_set]
        by_cases hee : e = e'
        · rw [if_pos hee]; exact ⟨d, _, rfl, hpos⟩
        · rw [if_neg hee]; exact h e' (by simp [he'])
    refine ⟨t', ?_, h2, h3, h4, h5.trans hk, fun e' => (h6 e').trans ?_⟩
    · rw [forLoop, hstep]; exact h1
    · unfold isFixed
      dsimp only
      rw [Dict.get?_set]
      by_cases hee : e = e'
      · subst hee; rw [if_pos rfl, hd]; rfl
      · rw [if_neg hee]

/-- Closing the slices removes exactly the sliced edges. -/
theorem closeSlices_spec {tn : TN τ} {split : List Nm} (hc : tn.Consistent) (hu : ∀ p ∈ tn.edges, p.2.fix = none)
    (hs : ∀ e ∈ split, ∃ d, tn.edges.get? e = some ⟨some d, none⟩ ∧ 0 < d) :
    ∃ t : TN τ, closeSlices (tn.presetSlices split) split = (t, .ok ()) ∧ LegsFiltered tn t (fun e => decide (e ∉ split)) ∧
      t.openE = tn.openE.filter (· ∉ split) ∧ t.Consistent ∧ ∀ e, t.isFixed e = false := by
  have hget : ∀ e, (tn.presetSlices split).edges.get? e = (tn.edges.get? e).map fun r =>
      if e ∈ split then { r with fix := some (List.range (r.dim.getD 0)) } else r := by
    intro e
    rw [← Dict.get?_map_val tn.edges (fun (e : Nm) (r : EdgeRec) => if e ∈ split then { r with fix := some (List.range (r.dim.getD 0)) } else r)]
    congr 1
    refine List.map_congr_left fun p _ => ?_
    split <;> rfl
  have hkeys : (tn.presetSlices split).edges.keys = tn.edges.keys := by
    unfold presetSlices Dict.keys
    dsimp only
    rw [List.map_map]
    refine List.map_congr_left fun p _ => ?_
    simp only [Function.comp]
    split <;> rfl
  have hcp : (tn.presetSlices split).Consistent := hc.withEdges hkeys
  have hco : Consistent { tn.presetSlices split with openE := tn.openE.filter (· ∉ split) } :=
    hcp.withOpen fun e he => by rw [hkeys]; exact hc.open_exist e (List.mem_filter.1 he).1
  have hfixed : ∀ e, (tn.presetSlices split).isFixed e = decide (e ∈ split) := by
    intro e
    unfold isFixed
    rw [hget]
    by_cases h : e ∈ split
    · obtain ⟨d, hd, _⟩ := hs e h
      rw [hd]; simp [h]
    · cases hr : tn.edges.get? e with
      | none => simp [h]
      | some r => have := hu _ (Dict.mem_of_get? hr); dsimp only at this; simp [h, this]
  obtain ⟨t', h1, h2, h3, h4, h5, h6⟩ := pinAll_spec (split := split)
    (t := { tn.presetSlices split with openE := tn.openE.filter (· ∉ split) }) fun e he => by
      obtain ⟨d, hd, hpos⟩ := hs e he
      refine ⟨d, List.range d, ?_, hpos⟩
      show (tn.presetSlices split).edges.get? e = _
      rw [hget, hd]; simp [he]
  have hct : t'.Consistent := by
    refine ⟨by rw [h2]; exact hco.nodes_nodup, by rw [h5]; exact hco.edges_nodup, ?_, ?_, ?_, by rw [h3]; exact hco.adj_nodup⟩
    · rw [h2, h5]; exact hco.legs_exist
    · rw [h4, h5]; exact hco.open_exist
    · rw [h3, h2]; exact hco.adj_iff
  have hfx : ∀ e, t'.isFixed e = decide (e ∈ split) := fun e => (h6 e).trans (hfixed e)
  obtain ⟨k1, k2, k3, k4⟩ := fixAll_spec hct
  refine ⟨t'.fixAll, ?_, ?_, ?_, k4, ?_⟩
  · unfold closeSlices
    rw [show (tn.presetSlices split).openE = tn.openE from rfl, h1]
  · unfold LegsFiltered
    rw [k1, h2]
    refine List.map_congr_left fun p _ => ?_
    simp only [hfx, Prod.mk.injEq, and_true, true_and]
    exact List.filter_congr fun e _ => by simp
  · rw [k3, h4]
  · intro e
    rw [Bool.eq_false_iff, ne_eq, isFixed_iff]
    rintro ⟨r, l, hr, hl⟩
    rw [k2, Dict.get?_filterKeys] at hr
    split at hr
    · next hcond =>
      have : t'.isFixed e = true := isFixed_iff.2 ⟨r, l, hr, hl⟩
      rw [this] at hcond
      rw [hfx, decide_eq_true_eq] at this
      have hno : e ∉ t'.openE := by rw [h4]; simp [this]
      simp [hno] at hcond
    · simp at hr

end TN

end Verif
