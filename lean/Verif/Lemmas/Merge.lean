import Verif.Lemmas.FixIndex
import Verif.Lemmas.Consistent
import Verif.Lemmas.Value
/-!
# `fix_edge`, `fix_index` and `merge_edges` on networks: effect on the ranges of the edges
-/

set_option linter.unusedSectionVars false

namespace Verif

variable {τ : Type}

namespace TN

/-- A successful `fix_edge` (without `change_fix`) restricts the range of that edge to the given values. -/
theorem fixEdge_dom {tn tn' : TN τ} {e : Nm} {vals : List Nat} (h : tn.fixEdge e vals = (tn', .ok ())) :
    ∃ r r' : EdgeRec, ∃ d, tn.edges.get? e = some r ∧ r.dim = some d ∧ (∀ v ∈ vals, v < d) ∧
      tn' = { tn with edges := tn.edges.set e r' } ∧ r'.dim = some d ∧ r'.fix.isSome ∧
      (∀ x, x ∈ r'.dom ↔ x ∈ r.dom ∧ x ∈ vals) ∧
      (vals.Nodup → (∀ l, r.fix = some l → l.Nodup) → ∀ l, r'.fix = some l → l.Nodup) := by
  unfold fixEdge at h
  cases hr : tn.edges.get? e with
  | none => rw [hr] at h; simp at h
  | some r =>
    rw [hr] at h
    simp only at h
    cases hd : r.dim with
    | none => rw [hd] at h; simp at h
    | some d =>
      rw [hd] at h
      simp only at h
      split at h
      · rename_i hall
        have hall : ∀ v ∈ vals, v < d := fun v hv => by simpa using List.all_eq_true.1 hall v hv
        cases hf : r.fix with
        | none =>
          rw [hf] at h
          simp only [Prod.mk.injEq, and_true] at h
          refine ⟨r, { dim := some d, fix := some vals }, d, rfl, hd, hall, h.symm, rfl, rfl, fun x => ?_,
            fun h1 _ l hl => by cases hl; exact h1⟩
          simp only [EdgeRec.dom, hf, hd, Option.getD_some, List.mem_toFinset, Finset.mem_range]
          exact ⟨fun hx => ⟨hall x hx, hx⟩, fun hx => hx.2⟩
        | some old =>
          rw [hf] at h
          simp only [Bool.false_eq_true, if_false, Prod.mk.injEq, and_true] at h
          refine ⟨r, { dim := some d, fix := some (old.filter (· ∈ vals)) }, d, rfl, hd, hall, h.symm, rfl, rfl, fun x => ?_,
            fun _ h1 l hl => by cases hl; exact (h1 old hf).filter _⟩
          simp only [EdgeRec.dom, hf, List.mem_toFinset, List.mem_filter, decide_eq_true_eq]
      · simp at h

/-- `fix_edge` succeeds on an edge of known dimension, for values in range. -/
theorem fixEdge_total {tn : TN τ} {e : Nm} {r : EdgeRec} {d : Nat} {vals : List Nat} (hr : tn.edges.get? e = some r)
    (hd : r.dim = some d) (hv : ∀ v ∈ vals, v < d) : ∃ tn', tn.fixEdge e vals = (tn', .ok ()) := by
  unfold fixEdge
  simp only [hr, hd]
  rw [if_pos (List.all_eq_true.2 fun v h => by simpa using hv v h)]
  cases r.fix with
  | none => exact ⟨_, rfl⟩
  | some old => exact ⟨_, rfl⟩

theorem dom_set (tn : TN τ) (e e' : Nm) (r : EdgeRec) :
    ({ tn with edges := tn.edges.set e r } : TN τ).dom e' = if e' = e then r.dom else tn.dom e' := by
  unfold TN.dom
  simp only [Dict.get?_set]
  by_cases h : e' = e
  · subst h; simp
  · have h' : ¬ e = e' := fun hc => h hc.symm
    simp [h, h']

/-- One iteration of the merge loop succeeds and restricts the target by the fix of the edge. -/
theorem mergeStep_total {t : TN τ} {m e : Nm} {rm r : EdgeRec} {d : Nat} (hm : t.edges.get? m = some rm)
    (hd : rm.dim = some d) (hr : t.edges.get? e = some r) (hf : ∀ f, r.fix = some f → ∀ v ∈ f, v < d) :
    ∃ (t' : TN τ) (rm' : EdgeRec), mergeStep m t e = (t', .ok ()) ∧ t'.edges.get? m = some rm' ∧ rm'.dim = some d ∧
      (∀ x, x ∈ rm'.dom ↔ x ∈ rm.dom ∧ ∀ f, r.fix = some f → x ∈ f) ∧
      ∀ x, x ≠ m → t'.edges.get? x = if x = e then none else t.edges.get? x := by
  unfold mergeStep
  simp only [hr]
  have key : ∃ (t1 : TN τ) (rm' : EdgeRec), t.mergeFix m r.fix = (t1, .ok ()) ∧ t1.edges.get? m = some rm' ∧
      rm'.dim = some d ∧ (∀ x, x ∈ rm'.dom ↔ x ∈ rm.dom ∧ ∀ f, r.fix = some f → x ∈ f) ∧
      ∀ x, x ≠ m → t1.edges.get? x = t.edges.get? x := by
    cases hfx : r.fix with
    | none => exact ⟨t, rm, rfl, hm, hd, fun x => by simp, fun _ _ => rfl⟩
    | some f =>
      obtain ⟨t1, h1⟩ := fixEdge_total hm hd (hf f hfx)
      obtain ⟨r0, r', d', a1, a2, a3, a4, a5, a6, a7, _⟩ := fixEdge_dom h1
      rw [hm] at a1
      cases a1
      rw [hd] at a2
      cases a2
      refine ⟨t1, r', h1, ?_, a5, fun x => ?_, fun x hx => ?_⟩
      · rw [a4]; show Dict.get? (Dict.set _ _ _) m = _; rw [Dict.get?_set, if_pos rfl]
      · rw [a7]; simp
      · rw [a4]; show Dict.get? (Dict.set _ _ _) x = _; rw [Dict.get?_set, if_neg (Ne.symm hx)]
  obtain ⟨t1, rm', k1, k2, k3, k4, k5⟩ := key
  simp only [k1]
  by_cases hem : e = m
  · simp only [if_pos hem]
    exact ⟨_, rm', rfl, k2, k3, k4, fun x hx => by rw [if_neg (hem ▸ hx)]; exact k5 x hx⟩
  · simp only [if_neg hem]
    refine ⟨_, rm', rfl, ?_, k3, k4, fun x hx => ?_⟩
    · show Dict.get? (Dict.del t1.edges e) m = _
      rw [Dict.get?_del, if_neg (Ne.symm hem)]; exact k2
    · show Dict.get? (Dict.del t1.edges e) x = _
      rw [Dict.get?_del]
      by_cases h : x = e
      · rw [if_pos h, if_pos h]
      · rw [if_neg h, if_neg h]; exact k5 x hx

/-- The whole merge loop. -/
theorem mergeLoop_total {m : Nm} {es : List Nm} (hn : es.Nodup) {t : TN τ} {rm : EdgeRec} {d : Nat}
    (hm : t.edges.get? m = some rm) (hd : rm.dim = some d)
    (he : ∀ e ∈ es, ∃ r, t.edges.get? e = some r ∧ ∀ f, r.fix = some f → ∀ v ∈ f, v < d) :
    ∃ (t' : TN τ) (rm' : EdgeRec), forLoop (mergeStep m) es t = (t', .ok ()) ∧ t'.edges.get? m = some rm' ∧
      rm'.dim = some d ∧
      (∀ x, x ∈ rm'.dom ↔ x ∈ rm.dom ∧ ∀ e ∈ es, ∀ r, t.edges.get? e = some r → ∀ f, r.fix = some f → x ∈ f) ∧
      ∀ x, x ≠ m → t'.edges.get? x = if x ∈ es then none else t.edges.get? x := by
  induction es generalizing t rm with
  | nil => exact ⟨t, rm, rfl, hm, hd, fun x => by simp, fun x _ => by simp⟩
  | cons e es ih =>
    obtain ⟨hne, hn⟩ := List.nodup_cons.1 hn
    obtain ⟨r, hr, hf⟩ := he e List.mem_cons_self
    obtain ⟨t1, rm1, k1, k2, k3, k4, k5⟩ := mergeStep_total hm hd hr hf
    have hother : ∀ e' ∈ es, e' ≠ m → t1.edges.get? e' = t.edges.get? e' := by
      intro e' he' hc
      rw [k5 e' hc, if_neg fun h : e' = e => hne (h ▸ he')]
    have hfm : ∀ f, rm1.fix = some f → ∀ x, x ∈ f ↔ x ∈ rm1.dom := by
      intro f h x
      simp [EdgeRec.dom, h]
    obtain ⟨t', rm', l1, l2, l3, l4, l5⟩ := ih hn k2 k3 (by
      intro e' he'
      by_cases hc : e' = m
      · subst hc
        refine ⟨rm1, k2, fun f h v hv => ?_⟩
        rw [hfm f h, k4] at hv
        obtain ⟨r0, hr0, hf0⟩ := he e' (List.mem_cons_of_mem _ he')
        rw [hm] at hr0
        cases hr0
        cases hfx : rm.fix with
        | none =>
          have := hv.1
          simpa [EdgeRec.dom, hfx, hd] using this
        | some g =>
          have := hv.1
          simp only [EdgeRec.dom, hfx, List.mem_toFinset] at this
          exact hf0 g hfx v this
      · obtain ⟨r0, hr0, hf0⟩ := he e' (List.mem_cons_of_mem _ he')
        exact ⟨r0, by rw [hother e' he' hc]; exact hr0, hf0⟩)
    refine ⟨t', rm', ?_, l2, l3, fun x => ?_, fun x hx => ?_⟩
    · show forLoop (mergeStep m) (e :: es) t = _
      unfold forLoop
      rw [k1]
      exact l1
    · rw [l4, k4]
      constructor
      · rintro ⟨⟨h1, h2⟩, h3⟩
        refine ⟨h1, fun e' he' r' hr' f hf' => ?_⟩
        rcases List.mem_cons.1 he' with rfl | he'
        · rw [hr] at hr'
          cases hr'
          exact h2 f hf'
        · by_cases hc : e' = m
          · subst hc
            rw [hm] at hr'
            cases hr'
            simpa [EdgeRec.dom, hf'] using h1
          · exact h3 e' he' r' (by rw [hother e' he' hc]; exact hr') f hf'
      · rintro ⟨h1, h2⟩
        refine ⟨⟨h1, h2 e List.mem_cons_self r hr⟩, fun e' he' r' hr' f hf' => ?_⟩
        by_cases hc : e' = m
        · subst hc
          rw [k2] at hr'
          cases hr'
          rw [hfm f hf', k4]
          exact ⟨h1, h2 e List.mem_cons_self r hr⟩
        · rw [hother e' he' hc] at hr'
          exact h2 e' (List.mem_cons_of_mem _ he') r' hr' f hf'
    · rw [l5 x hx]
      by_cases hxs : x ∈ es
      · rw [if_pos hxs, if_pos (List.mem_cons_of_mem _ hxs)]
      · rw [if_neg hxs, k5 x hx]
        by_cases hxe : x = e
        · rw [if_pos hxe, if_pos (hxe ▸ List.mem_cons_self)]
        · rw [if_neg hxe, if_neg (fun h => (List.mem_cons.1 h).elim hxe hxs)]

theorem mergeDim_eq {tn : TN τ} {es : List Nm} {d : Nat}
    (he : ∀ e ∈ es, ∃ r, tn.edges.get? e = some r ∧ r.dim = some d) (d0 : Option Nat) :
    tn.mergeDim es d0 = some (if es = [] then d0 else some d) := by
  induction es generalizing d0 with
  | nil => rfl
  | cons e es ih =>
    obtain ⟨r, hr, hd⟩ := he e List.mem_cons_self
    unfold mergeDim
    simp only [hr]
    rw [ih fun e' he' => he e' (List.mem_cons_of_mem _ he'), hd]
    by_cases h : es = [] <;> simp [h]

/-- The preconditions of `merge_edges`: distinct edges of one dimension, fixed to values in range, and a target
that is one of them, or new, or another edge of that dimension. -/
structure MergeOK (tn : TN τ) (es : List Nm) (mt dflt : Option Nm) (m : Nm) (d : Nat) : Prop where
  ne : es ≠ []
  nodup : es.Nodup
  edges : ∀ e ∈ es, ∃ r, tn.edges.get? e = some r ∧ r.dim = some d ∧ ∀ f, r.fix = some f → ∀ v ∈ f, v < d
  target : mt = some m ∨ (mt = none ∧ dflt = some m ∧ m ∈ es)
  old : ∀ r, tn.edges.get? m = some r → r.dim = some d ∧ ∀ f, r.fix = some f → ∀ v ∈ f, v < d

/-- The result of `merge_edges`. -/
theorem mergeEdges_total {tn : TN τ} (hc : tn.Consistent) {es : List Nm} {mt dflt : Option Nm} {m : Nm} {d : Nat}
    (h : MergeOK tn es mt dflt m d) :
    ∃ (tn' : TN τ) (rm' : EdgeRec) (touched : Nm → Bool), tn.mergeEdges es mt dflt = (tn', .ok m) ∧
      (∀ n, touched n = true ↔ ∃ e ∈ es, (n, e) ∈ tn.adj) ∧
      tn'.nodes = tn.nodes.mapIf touched (renameLegs es m) ∧
      tn'.openE = tn.openE.map (fun i => if i ∈ es then m else i) ∧
      tn'.edges.get? m = some rm' ∧ rm'.dim = some d ∧
      (∀ x, x ∈ rm'.dom ↔ x < d ∧ (∀ r, tn.edges.get? m = some r → x ∈ r.dom) ∧
        ∀ e ∈ es, ∀ r, tn.edges.get? e = some r → x ∈ r.dom) ∧
      ∀ x, x ≠ m → tn'.edges.get? x = if x ∈ es then none else tn.edges.get? x := by
  have hmd : tn.mergeDim es none = some (some d) := by
    rw [mergeDim_eq (d := d) fun e he => by
      obtain ⟨r, h1, h2, _⟩ := h.edges e he
      exact ⟨r, h1, h2⟩]
    simp [h.ne]
  have hor : mt.or dflt = some m := by
    rcases h.target with h1 | ⟨h1, h2, _⟩
    · rw [h1]; rfl
    · rw [h1, h2]; rfl
  -- the network after creating the target and setting its dimension
  have key : ∃ (t2 : TN τ) (rm : EdgeRec),
      (if mt.isSome && !tn.edges.has m then (tn.addEdge (some m) none).1 else tn).updateDimension [(m, some d)] =
        (t2, .ok ()) ∧ t2.nodes = tn.nodes ∧ t2.openE = tn.openE ∧ t2.adj = tn.adj ∧ t2.edges.get? m = some rm ∧
      rm.dim = some d ∧ (∀ x, x ≠ m → t2.edges.get? x = tn.edges.get? x) ∧
      (∀ r, tn.edges.get? m = some r → rm = r) ∧ (m ∉ tn.edges.keys → rm.fix = none) := by
    by_cases hk : m ∈ tn.edges.keys
    · obtain ⟨rm, hrm⟩ := Dict.exists_get? hk
      have hd := (h.old rm hrm).1
      have : (mt.isSome && !tn.edges.has m) = false := by rw [Dict.has_iff.2 hk]; simp
      rw [this]
      refine ⟨tn, rm, ?_, rfl, rfl, rfl, hrm, hd, fun _ _ => rfl,
        fun r hr => by rw [hrm] at hr; exact Option.some.inj hr, fun hc => absurd hk hc⟩
      show forLoop updateDim1 [(m, some d)] tn = _
      simp only [forLoop, updateDim1, hrm, hd]
      simp
    · have hmt : mt = some m := by
        rcases h.target with h1 | ⟨_, _, h3⟩
        · exact h1
        · obtain ⟨r, hr, _⟩ := h.edges m h3
          exact absurd (Dict.mem_keys_of_get? hr) hk
      have hk' : tn.edges.has m = false := Dict.has_eq_false.2 hk
      have : (mt.isSome && !tn.edges.has m) = true := by rw [hk', hmt]; rfl
      rw [this, if_pos rfl]
      have h1 : (tn.addEdge (some m) none).1 = { tn with edges := tn.edges.set m { dim := none } } := by
        simp [addEdge, addEdgeNamed, hk']
      rw [h1]
      refine ⟨{ tn with edges := (tn.edges.set m { dim := none }).set m { dim := some d } }, { dim := some d }, ?_, rfl,
        rfl, rfl, ?_, rfl, fun x hx => ?_, fun r hr => absurd (Dict.mem_keys_of_get? hr) hk, fun _ => rfl⟩
      · show forLoop updateDim1 [(m, some d)] _ = _
        simp [forLoop, updateDim1, Dict.get?_set]
      · show Dict.get? (Dict.set _ _ _) m = _
        rw [Dict.get?_set, if_pos rfl]
      · show Dict.get? (Dict.set (Dict.set _ _ _) _ _) x = _
        rw [Dict.get?_set, if_neg (Ne.symm hx), Dict.get?_set, if_neg (Ne.symm hx)]
  obtain ⟨t2, rm, k1, k2, k3, k4, k5, k6, k7, k8, k9⟩ := key
  have hes2 : ∀ e ∈ es, ∃ r, t2.edges.get? e = some r ∧ ∀ f, r.fix = some f → ∀ v ∈ f, v < d := by
    intro e he
    obtain ⟨r, h1, _, h3⟩ := h.edges e he
    by_cases hem : e = m
    · subst hem
      exact ⟨rm, k5, by rw [k8 r h1]; exact h3⟩
    · exact ⟨r, by rw [k7 e hem]; exact h1, h3⟩
  obtain ⟨t3, rm', l1, l2, l3, l4, l5⟩ := mergeLoop_total h.nodup k5 k6 hes2
  obtain ⟨b1, b2, b3, _⟩ := mergeLoop_ok l1
  have hall : (t3.openE.map fun i => if i ∈ es then m else i).all t3.edges.has = true := by
    rw [List.all_eq_true]
    intro x hx
    obtain ⟨i, hi, rfl⟩ := List.mem_map.1 hx
    rw [Dict.has_iff]
    split
    · exact Dict.mem_keys_of_get? l2
    · rename_i hies
      by_cases him : i = m
      · rw [him]; exact Dict.mem_keys_of_get? l2
      · rw [b2, k3] at hi
        obtain ⟨r, hr⟩ := Dict.exists_get? (hc.open_exist i hi)
        exact Dict.mem_keys_of_get? (v := r) (by rw [l5 i him, if_neg hies, k7 i him]; exact hr)
  refine ⟨{ t3 with
      nodes := t3.nodes.mapIf (t2.nodeOfEdges es) (renameLegs es m)
      openE := t3.openE.map fun i => if i ∈ es then m else i }, rm', t2.nodeOfEdges es, ?_, fun n => ?_, ?_, ?_, l2, l3,
    fun x => ?_, fun x hx => ?_⟩
  · unfold TN.mergeEdges
    simp only [hmd, hor, k1, l1]
    rw [if_pos hall]
  · rw [nodeOfEdges_iff, k4]
  · show Dict.mapIf _ _ _ = _
    rw [b1, k2]
  · show List.map _ _ = _
    rw [b2, k3]
  · rw [l4]
    have hold : ∀ e ∈ es, ∀ r, tn.edges.get? e = some r → x < d → ((∀ f, r.fix = some f → x ∈ f) ↔ x ∈ r.dom) := by
      intro e he r hr hx
      obtain ⟨r0, h1, h2, _⟩ := h.edges e he
      rw [h1] at hr
      cases hr
      cases hf : r.fix with
      | none => simp [EdgeRec.dom, hf, h2, hx]
      | some f => simp [EdgeRec.dom, hf]
    constructor
    · rintro ⟨h1, h2⟩
      have hx : x < d := by
        cases hf : rm.fix with
        | none => simpa [EdgeRec.dom, hf, k6] using h1
        | some f =>
          by_cases hk : m ∈ tn.edges.keys
          · obtain ⟨r, hr⟩ := Dict.exists_get? hk
            have := (h.old r hr).2
            rw [← k8 r hr] at this
            exact this f hf x (by simpa [EdgeRec.dom, hf] using h1)
          · rw [k9 hk] at hf
            simp at hf
      refine ⟨hx, fun r hr => by rw [← k8 r hr]; exact h1, fun e he r hr => ?_⟩
      rw [← hold e he r hr hx]
      by_cases hem : e = m
      · subst hem
        rw [← k8 r hr]
        exact h2 e he rm k5
      · exact h2 e he r (by rw [k7 e hem]; exact hr)
    · rintro ⟨hx, h1, h2⟩
      refine ⟨?_, fun e he r hr => ?_⟩
      · by_cases hk : m ∈ tn.edges.keys
        · obtain ⟨r, hr⟩ := Dict.exists_get? hk
          rw [k8 r hr]; exact h1 r hr
        · simp [EdgeRec.dom, k9 hk, k6, hx]
      · by_cases hem : e = m
        · subst hem
          obtain ⟨r0, a1, _⟩ := h.edges e he
          rw [k5] at hr
          cases hr
          rw [k8 r0 a1, hold e he r0 a1 hx]
          exact h2 e he r0 a1
        · rw [k7 e hem] at hr
          rw [hold e he r hr hx]
          exact h2 e he r hr
  · show t3.edges.get? x = _
    rw [l5 x hx, k7 x hx]

end TN

end Verif
