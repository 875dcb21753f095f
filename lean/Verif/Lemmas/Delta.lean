import Verif.Model.Delta
import Verif.Lemmas.Absorb
import Verif.Props.Encapsulate
import Verif.Props.ShapeEdits
/-! # `complete_delta` keeps the value (lemmas for C01) -/

set_option linter.unusedSectionVars false

namespace Verif

variable {R : Type} [CommSemiring R] [Star R]

/-- A reading of tensors that reads arrays off. -/
class ArrVal (val : TVal R → List Nat → R) : Prop where
  arr : ∀ a, val (.ten (some a)) = a.get

instance : ArrVal (TVal.val : TVal R → List Nat → R) := ⟨fun a => by rw [TVal.val]⟩

/-- The edge lies on a leg of some node. -/
def TN.Attached {τ : Type} (tn : TN τ) (e : Nm) : Prop := ∃ n r, tn.nodes.get? n = some r ∧ e ∈ r.legs

/-- Every edge in use has a definite dimension, and is fixed to admissible values if it is fixed. -/
def TN.DimsKnown {τ : Type} (tn : TN τ) : Prop :=
  ∀ e, tn.Attached e ∨ e ∈ tn.openE → ∃ er d, tn.edges.get? e = some er ∧ er.dim = some d ∧
    ∀ l, er.fix = some l → ∀ x ∈ l, x < d

omit [Star R] in
theorem TN.mem_usedEdges_factors {τ : Type} {tn : TN τ} (hn : tn.nodes.keys.Nodup) (val : τ → List Nat → R) {e : Nm} :
    e ∈ usedEdges (tn.factors val) tn.openE ↔ tn.Attached e ∨ e ∈ tn.openE := by
  rw [mem_usedEdges]
  refine or_congr_left ⟨?_, ?_⟩
  · rintro ⟨f, hf, he⟩
    obtain ⟨n, r, hr, rfl⟩ := (TN.mem_factors hn).1 hf
    exact ⟨n, r, hr, he⟩
  · rintro ⟨n, r, hr, he⟩
    exact ⟨r.factor val, (TN.mem_factors hn).2 ⟨n, r, hr, rfl⟩, he⟩

theorem addNode_array {tn tn' : TN (TVal R)} {n m i : Nm} {es : List Nm} {a : Arr R}
    (h : tn.addNode (some n) i (some es) (.ten (some a)) false = (tn', .ok m)) :
    n ∉ tn.nodes.keys ∧
    tn'.nodes = tn.nodes ++ [(n, { legs := es, ten := some (.ten (some a)), frozen := false })] ∧
    tn'.openE = tn.openE ∧ EdgesExt tn.edges es tn'.edges ∧
    ∀ (j : Nat) e d, es[j]? = some e → a.shape[j]? = some d → ∃ r, tn'.edges.get? e = some r ∧ r.dim = some d := by
  obtain ⟨hn, hnt, legs, frozen, E', hl, htn', hE', hdim⟩ := TN.addNode_ok h
  simp only [TN.newLegs, Option.some.injEq, Prod.mk.injEq] at hl
  obtain ⟨rfl, rfl⟩ := hl
  have hnn : n ∉ tn.nodes.keys := Dict.has_eq_false.1 hnt
  have hshape : HasShape.shape (TVal.ten (some a)) = some (a.shape.map some) := by
    rw [TVal.shape_def, TVal.shape]
  obtain ⟨_, h2⟩ := hdim _ hshape
  have hnm : m = n := hn
  subst hnm
  refine ⟨hnn, ?_, ?_, ?_, ?_⟩
  · rw [htn']
    exact Dict.set_eq_append hnn _
  · rw [htn']
    show tn.openE ++ _ = _
    simp
  · rw [htn']; exact hE'
  · intro j e d hj hd
    obtain ⟨r, hr, hrd⟩ := h2 j e d hj (by rw [List.getElem?_map, hd]; rfl)
    exact ⟨r, by rw [htn']; exact hr, hrd⟩

theorem factors_append {τ : Type} {tn tn' : TN τ} {val : τ → List Nat → R} {p : Nm × NodeRec τ}
    (h : tn'.nodes = tn.nodes ++ [p]) : tn'.factors val = tn.factors val ++ [p.2.factor val] := by
  unfold TN.factors
  rw [h, List.map_append]; rfl

theorem attached_append {τ : Type} {tn tn' : TN τ} {n : Nm} {r : NodeRec τ} (hn : n ∉ tn.nodes.keys)
    (h : tn'.nodes = tn.nodes ++ [(n, r)]) {e : Nm} : tn'.Attached e ↔ tn.Attached e ∨ e ∈ r.legs := by
  unfold TN.Attached
  constructor
  · rintro ⟨m, rm, hm, he⟩
    rw [h, Dict.get?_append] at hm
    cases hg : tn.nodes.get? m with
    | some r0 => rw [hg] at hm; simp at hm; subst hm; exact Or.inl ⟨m, r0, hg, he⟩
    | none =>
      rw [hg] at hm
      simp only [Option.none_or, Dict.get?_cons] at hm
      split at hm
      · cases hm; exact Or.inr he
      · simp [Dict.get?] at hm
  · rintro (⟨m, rm, hm, he⟩ | he)
    · exact ⟨m, rm, by rw [h, Dict.get?_append, hm]; rfl, he⟩
    · refine ⟨n, r, ?_, he⟩
      rw [h, Dict.get?_append, Dict.get?_eq_none.2 hn]
      simp [Dict.get?_cons]

/-- Definite dimensions survive adding an array. -/
theorem get?_append_one {τ : Type} {tn tn' : TN τ} {n : Nm} {r : NodeRec τ} (_hn : n ∉ tn.nodes.keys)
    (h : tn'.nodes = tn.nodes ++ [(n, r)]) {m : Nm} {rm : NodeRec τ} (hm : tn'.nodes.get? m = some rm) :
    tn.nodes.get? m = some rm ∨ m = n ∧ rm = r := by
  rw [h, Dict.get?_append] at hm
  cases hg : tn.nodes.get? m with
  | some r0 => rw [hg] at hm; simp at hm; subst hm; exact Or.inl rfl
  | none =>
    rw [hg] at hm
    simp only [Option.none_or, Dict.get?_cons] at hm
    split at hm
    · next hh => cases hm; exact Or.inr ⟨hh.symm, rfl⟩
    · simp [Dict.get?] at hm

theorem dimsKnown_addNode {tn tn' : TN (TVal R)} {n m i : Nm} {es : List Nm} {a : Arr R}
    (h : tn.addNode (some n) i (some es) (.ten (some a)) false = (tn', .ok m)) (hlen : a.shape.length = es.length)
    (hk : tn.DimsKnown) (hused : ∀ e ∈ es, e ∈ tn.edges.keys → tn.Attached e ∨ e ∈ tn.openE) : tn'.DimsKnown := by
  obtain ⟨hn, hnodes, hopen, hext, hdim⟩ := addNode_array h
  have key : ∀ e er d, tn.edges.get? e = some er → er.dim = some d → (∀ l, er.fix = some l → ∀ x ∈ l, x < d) →
      ∃ er d, tn'.edges.get? e = some er ∧ er.dim = some d ∧ ∀ l, er.fix = some l → ∀ x ∈ l, x < d := by
    intro e er d her hd hf
    obtain ⟨r', hr', hf', hd'⟩ := hext.grow.ent e er her
    exact ⟨r', d, hr', hd' d hd, by rw [hf']; exact hf⟩
  intro e he
  rw [attached_append hn hnodes, hopen] at he
  by_cases hold : tn.Attached e ∨ e ∈ tn.openE
  · obtain ⟨er, d, her, hd, hf⟩ := hk e hold
    exact key e er d her hd hf
  · have hes : e ∈ es := by
      rcases he with (h1 | h1) | h1
      · exact absurd (Or.inl h1) hold
      · exact h1
      · exact absurd (Or.inr h1) hold
    have hnk : e ∉ tn.edges.keys := fun hc => hold (hused e hes hc)
    obtain ⟨j, hj, hje⟩ := List.getElem_of_mem hes
    obtain ⟨r, hr, hrd⟩ := hdim j e (a.shape[j]'(by omega)) (List.getElem?_eq_some_iff.2 ⟨hj, hje⟩)
      (List.getElem?_eq_getElem _)
    refine ⟨r, _, hr, hrd, fun l hl => ?_⟩
    rw [hext.nofix e r hnk hr] at hl
    cases hl

/-- Tensors still fit after adding an array. -/
theorem ready_addNode {tn tn' : TN (TVal R)} {n m i : Nm} {es : List Nm} {a : Arr R}
    (h : tn.addNode (some n) i (some es) (.ten (some a)) false = (tn', .ok m)) (hlen : a.shape.length = es.length)
    (hr : tn.Ready) : tn'.Ready := by
  obtain ⟨hn, hnodes, hopen, hext, hdim⟩ := addNode_array h
  refine ⟨fun k r hk => ?_, fun e he => ?_⟩
  · rw [hnodes, Dict.get?_append] at hk
    cases hg : tn.nodes.get? k with
    | some r0 =>
      rw [hg] at hk
      simp only [Option.some_or, Option.some.injEq] at hk
      subst hk
      obtain ⟨t, sh, h1, h2, h3, h4⟩ := hr.nodes k r0 hg
      refine ⟨t, sh, h1, h2, h3, fun j e hj => ?_⟩
      obtain ⟨er, her, hd⟩ := h4 j e hj
      have hlt := (List.getElem?_eq_some_iff.1 hj).1
      have hshj : sh[j]? = some (sh[j]'(by omega)) := List.getElem?_eq_getElem _
      obtain ⟨r', hr', _, hd'⟩ := hext.grow.ent e er her
      exact ⟨r', hr', by rw [hshj]; exact hd' _ (by rw [hd, hshj])⟩
    | none =>
      rw [hg] at hk
      simp only [Option.none_or, Dict.get?_cons] at hk
      split at hk
      · cases hk
        refine ⟨_, a.shape, rfl, by rw [TVal.shape_def, TVal.shape], hlen, fun j e hj => ?_⟩
        have hlt := (List.getElem?_eq_some_iff.1 hj).1
        have hshj : a.shape[j]? = some (a.shape[j]'(by simp only at hlt; omega)) := List.getElem?_eq_getElem _
        obtain ⟨r, hr, hrd⟩ := hdim j e _ hj hshj
        exact ⟨r, hr, by rw [hrd, hshj]⟩
      · simp [Dict.get?] at hk
  · rw [hopen] at he
    obtain ⟨er, d, her, hd⟩ := hr.opens e he
    obtain ⟨r', hr', _, hd'⟩ := hext.grow.ent e er her
    exact ⟨r', d, hr', hd' d hd⟩

theorem map_set_subst {α : Type} [DecidableEq α] {l : List α} {i : Nat} {e e' : α} (hi : l[i]? = some e)
    (he : e' ∉ l) : (l.set i e').map (fun x => if x = e' then e else x) = l := by
  refine List.ext_getElem? fun j => ?_
  rw [List.getElem?_map, List.getElem?_set]
  have hlt := (List.getElem?_eq_some_iff.1 hi).1
  by_cases hij : i = j
  · subst hij
    rw [if_pos rfl, if_pos hlt, hi]
    simp
  · rw [if_neg hij]
    cases hj : l[j]? with
    | none => rfl
    | some x =>
      have : x ≠ e' := fun h => he (h ▸ List.mem_of_getElem? hj)
      simp [this]

theorem deltaEdge_inj {e e' : Nm} {k k' : Nat} (h : deltaEdge e k = deltaEdge e' k') : e = e' ∧ k = k' := by
  simpa [deltaEdge, Nm.pair] using h

theorem dom_sub_range {τ : Type} {tn : TN τ} {e : Nm} {r : EdgeRec} {d : Nat} (hr : tn.edges.get? e = some r)
    (hd : r.dim = some d) (hf : ∀ l, r.fix = some l → ∀ x ∈ l, x < d) : tn.dom e ⊆ Finset.range d := by
  unfold TN.dom EdgeRec.dom
  rw [hr]
  intro x hx
  simp only at hx
  split at hx
  · next l hl => exact Finset.mem_range.2 (hf l hl x (List.mem_toFinset.1 hx))
  · rw [hd] at hx; exact hx

/-- One identity matrix added by the first loop keeps the value. -/
theorem value_eye {val : TVal R → List Nat → R} [ArrVal val] {tn tn' : TN (TVal R)} {n m i0 e e' : Nm} {d i : Nat} {er : EdgeRec}
    (h : tn.addNode (some n) i0 (some [e, e']) (.ten (some (eyeArr d))) false = (tn', .ok m))
    (hc : tn.Consistent) (hk : tn.DimsKnown) (her : tn.edges.get? e = some er) (hd : er.dim = some d)
    (hi : tn.openE[i]? = some e) (he' : e' ∉ tn.edges.keys) (idx : List Nat) :
    ({ tn' with openE := tn'.openE.set i e' } : TN (TVal R)).value val idx = tn.value val idx := by
  obtain ⟨hn, hnodes, hopen, hext, hdim⟩ := addNode_array h
  have heo : e ∈ tn.openE := List.mem_of_getElem? hi
  have hdomeq : ∀ x, tn.Attached x ∨ x ∈ tn.openE → tn'.dom x = tn.dom x := by
    intro x hx
    obtain ⟨xr, xd, hx1, hx2, _⟩ := hk x hx
    exact dom_grow rfl rfl hext.grow hx1 hx2
  have he'open : e' ∉ tn.openE := fun hc' => he' (hc.open_exist _ hc')
  have he'legs : ∀ f ∈ tn.factors val, e' ∉ f.legs := by
    intro f hf hl
    obtain ⟨m, r, hr, rfl⟩ := (TN.mem_factors hc.nodes_nodup).1 hf
    exact he' (hc.legs_exist m r hr e' hl)
  obtain ⟨_, d0, h0, h1, hfix⟩ := hk e (Or.inr heo)
  rw [her] at h0
  cases h0
  rw [hd] at h1
  cases h1
  have hdom' : tn'.dom e' = Finset.range d := by
    obtain ⟨r, hr, hrd⟩ := hdim 1 e' d rfl rfl
    exact dom_eq_range hr (hext.nofix e' r he' hr) hrd
  have hsub : tn'.dom e ⊆ tn'.dom e' := by
    rw [hdom', hdomeq e (Or.inr heo)]
    exact dom_sub_range her hd hfix
  show einsum tn'.dom (tn'.factors val) (tn'.openE.set i e') idx = einsum tn.dom (tn.factors val) tn.openE idx
  rw [factors_append hnodes, hopen]
  have hval : (NodeRec.factor val { legs := [e, e'], ten := some (TVal.ten (some (eyeArr d))), frozen := false } :
      Factor Nm R) = ⟨[e, e'], (eyeArr d : Arr R).get⟩ := by
    simp [NodeRec.factor, ArrVal.arr]
  rw [hval, einsum_delta (fs := tn.factors val) (opn := tn.openE) (e := e) (e' := e')
    (mem_usedEdges.2 (Or.inr heo)) he'legs he'open hsub (map_set_subst hi he'open)
    (fun x y _ _ => by simp [eyeArr])]
  exact einsum_dom_congr fun x hx => hdomeq x ((TN.mem_usedEdges_factors hc.nodes_nodup val).1 hx)

theorem popFix_get? (tn : TN (TVal R)) (e x : Nm) : (tn.popFix e).edges.get? x =
    if x = e then (tn.edges.get? x).map (fun r => { r with fix := none }) else tn.edges.get? x := by
  show Dict.get? (tn.edges.modify e fun r => { r with fix := none }) x = _
  rw [Dict.get?_modify]

/-- One diagonal vector added by the second loop keeps the value. -/
theorem value_diag {val : TVal R → List Nat → R} [ArrVal val] {tn tn' : TN (TVal R)} {n m i0 e : Nm} {d : Nat} {er : EdgeRec}
    (h : (tn.popFix e).addNode (some n) i0 (some [e]) (.ten (some (diagArr d er.fix))) false = (tn', .ok m))
    (hc : tn.Consistent) (hk : tn.DimsKnown) (her : tn.edges.get? e = some er) (hd : er.dim = some d)
    (heo : e ∈ tn.openE) (idx : List Nat) :
    tn'.value val idx = tn.value val idx := by
  obtain ⟨hn, hnodes, hopen, hext, hdim⟩ := addNode_array h
  have hpop := popFix_get? tn e
  have hdome : tn'.dom e = Finset.range d := by
    have h1 := hpop e
    rw [if_pos rfl, her] at h1
    obtain ⟨r', hr', hf', hd'⟩ := hext.grow.ent e _ h1
    exact dom_eq_range hr' hf' (hd' d hd)
  have hdomeq : ∀ x, x ≠ e → tn.Attached x ∨ x ∈ tn.openE → tn'.dom x = tn.dom x := by
    intro x hxe hx
    obtain ⟨xr, xd, hx1, hx2, _⟩ := hk x hx
    have h1 := hpop x
    rw [if_neg hxe, hx1] at h1
    have h2 : tn'.dom x = (tn.popFix e).dom x := dom_grow rfl rfl hext.grow h1 hx2
    rw [h2]
    unfold TN.dom
    rw [h1, hx1]
  obtain ⟨_, d0, h0, h1, hfix⟩ := hk e (Or.inr heo)
  rw [her] at h0
  cases h0
  rw [hd] at h1
  cases h1
  show einsum tn'.dom (tn'.factors val) tn'.openE idx = einsum tn.dom (tn.factors val) tn.openE idx
  rw [factors_append (tn := tn) hnodes, hopen]
  have hval : (NodeRec.factor val { legs := [e], ten := some (TVal.ten (some (diagArr d er.fix))), frozen := false } :
      Factor Nm R) = ⟨[e], (diagArr d er.fix : Arr R).get⟩ := by
    simp [NodeRec.factor, ArrVal.arr]
  rw [hval]
  show einsum tn'.dom (tn.factors val ++ _) tn.openE idx = _
  let dom1 : Nm → Finset Nat := fun x => if x = e then Finset.range d else tn.dom x
  have hd1 : ∀ x ∈ usedEdges (tn.factors val ++ [⟨[e], (diagArr d er.fix : Arr R).get⟩]) tn.openE,
      tn'.dom x = dom1 x := by
    intro x hx
    by_cases hxe : x = e
    · simp only [dom1, if_pos hxe]; rw [hxe]; exact hdome
    · simp only [dom1, if_neg hxe]
      refine hdomeq x hxe ((TN.mem_usedEdges_factors hc.nodes_nodup val).1 ?_)
      rw [mem_usedEdges] at hx ⊢
      refine hx.imp_left ?_
      rintro ⟨f, hf, hl⟩
      rw [List.mem_append, List.mem_singleton] at hf
      rcases hf with hf | rfl
      · exact ⟨f, hf, hl⟩
      · exact absurd (by simpa using hl) hxe
  rw [einsum_dom_congr hd1]
  refine einsum_absorb (mem_usedEdges.2 (Or.inr heo)) ?_ (fun x hx => by simp [dom1, hx]) ?_
  · simp only [dom1, if_pos]
    exact dom_sub_range her hd hfix
  · intro x hx
    simp only [dom1, if_pos, Finset.mem_range] at hx
    have hdm : tn.dom e = er.dom := by unfold TN.dom; rw [her]
    rw [hdm]
    clear her hfix hd1 hval hnodes h hdim hdm
    obtain ⟨dm, fx⟩ := er
    cases hd
    cases fx with
    | none => simp [diagArr, EdgeRec.dom, hx]
    | some l => simp [diagArr, EdgeRec.dom]

theorem consistent_popFix {tn : TN (TVal R)} (hc : tn.Consistent) (e : Nm) : (tn.popFix e).Consistent := by
  have hk : (tn.popFix e).edges.keys = tn.edges.keys :=
    Dict.keys_modify tn.edges e fun r => { r with fix := none }
  exact {
    nodes_nodup := hc.nodes_nodup
    edges_nodup := by rw [hk]; exact hc.edges_nodup
    legs_exist := fun n r hr x hx => by rw [hk]; exact hc.legs_exist n r hr x hx
    open_exist := fun x hx => by rw [hk]; exact hc.open_exist x hx
    adj_iff := hc.adj_iff
    adj_nodup := hc.adj_nodup }

theorem dimsKnown_popFix {tn : TN (TVal R)} (hk : tn.DimsKnown) (e : Nm) : (tn.popFix e).DimsKnown := by
  intro x hx
  obtain ⟨er, d, h1, h2, h3⟩ := hk x hx
  rw [popFix_get?]
  by_cases hxe : x = e
  · refine ⟨{ er with fix := none }, d, ?_, h2, ?_⟩
    · rw [if_pos hxe, h1]; rfl
    · intro l hl; simp at hl
  · exact ⟨er, d, by rw [if_neg hxe, h1], h2, h3⟩

theorem ready_popFix {tn : TN (TVal R)} (hr : tn.Ready) (e : Nm) : (tn.popFix e).Ready := by
  have key : ∀ x er, tn.edges.get? x = some er → ∃ er', (tn.popFix e).edges.get? x = some er' ∧ er'.dim = er.dim := by
    intro x er hx
    rw [popFix_get?, hx]
    by_cases hxe : x = e
    · exact ⟨{ er with fix := none }, by rw [if_pos hxe]; rfl, rfl⟩
    · exact ⟨er, by rw [if_neg hxe], rfl⟩
  refine ⟨fun n r hn => ?_, fun x hx => ?_⟩
  · obtain ⟨t, sh, h1, h2, h3, h4⟩ := hr.nodes n r hn
    refine ⟨t, sh, h1, h2, h3, fun j x hj => ?_⟩
    obtain ⟨er, h5, h6⟩ := h4 j x hj
    obtain ⟨er', h7, h8⟩ := key x er h5
    exact ⟨er', h7, h8.trans h6⟩
  · obtain ⟨er, d, h1, h2⟩ := hr.opens x hx
    obtain ⟨er', h7, h8⟩ := key x er h1
    exact ⟨er', d, h7, h8.trans h2⟩

theorem consistent_setOpen {tn : TN (TVal R)} (hc : tn.Consistent) {e : Nm} (he : e ∈ tn.edges.keys) (i : Nat) :
    ({ tn with openE := tn.openE.set i e } : TN (TVal R)).Consistent :=
  { nodes_nodup := hc.nodes_nodup
    edges_nodup := hc.edges_nodup
    legs_exist := hc.legs_exist
    open_exist := fun x hx => by
      rcases List.mem_or_eq_of_mem_set hx with h | h
      · exact hc.open_exist x h
      · rw [h]; exact he
    adj_iff := hc.adj_iff
    adj_nodup := hc.adj_nodup }

/-- The state after the first `i` open edges of `tn0` have been processed by the first loop. -/
structure OpenInv (tn0 t : TN (TVal R)) (names : Dict Nm Nat) (i : Nat) : Prop where
  cons : t.Consistent
  dims : t.DimsKnown
  ready : t.Ready
  value : ∀ (val : TVal R → List Nat → R) [ArrVal val] idx, t.value val idx = tn0.value val idx
  shp : t.shape? = tn0.shape?
  names_nodup : names.keys.Nodup
  names_iff : ∀ e, e ∈ names.keys ↔ e ∈ tn0.openE.take i
  edges : ∀ x, x ∈ t.edges.keys → x ∈ tn0.edges.keys ∨ ∃ e k j, names.get? e = some k ∧ 1 ≤ j ∧ j ≤ k ∧ x = deltaEdge e j
  grow : EdgesGrow tn0.edges t.edges
  att : ∀ e, tn0.Attached e → t.Attached e
  newE : ∀ e k j, names.get? e = some k → 1 ≤ j → j ≤ k → t.Attached e ∧ t.Attached (deltaEdge e j) ∧
    ∃ r, t.edges.get? (deltaEdge e j) = some r ∧ r.fix = none
  opn : ∃ P, t.openE = P ++ tn0.openE.drop i ∧ P.length = (tn0.openE.take i).length ∧ P.Nodup ∧
    (∀ x ∈ names.keys, x ∈ P) ∧
    ∀ x ∈ P, x ∈ names.keys ∨ ∃ e k j, names.get? e = some k ∧ 1 ≤ j ∧ j ≤ k ∧ x = deltaEdge e j
  nodes : tn0.nodes ≠ [] → t.nodes ≠ []
  ten : ∀ n r, t.nodes.get? n = some r → tn0.nodes.get? n = some r ∨ ∃ e k j a, names.get? e = some k ∧ 1 ≤ j ∧ j ≤ k ∧
    n = deltaNode e j ∧ r.ten = some (.ten (some a))

theorem openInv_start {tn : TN (TVal R)} (hc : tn.Consistent) (hk : tn.DimsKnown) (hr : tn.Ready) :
    OpenInv tn tn [] 0 where
  cons := hc
  dims := hk
  ready := hr
  value := fun _ _ _ => rfl
  shp := rfl
  names_nodup := by simp [Dict.keys]
  names_iff := by simp [Dict.keys]
  edges := fun x hx => Or.inl hx
  grow := EdgesGrow.refl _
  att := fun _ h => h
  newE := by simp [Dict.get?]
  opn := ⟨[], by simp [Dict.keys]⟩
  nodes := id
  ten := fun _ _ h => Or.inl h

theorem openInv_step {tn0 t t' : TN (TVal R)} {names names' : Dict Nm Nat} {i : Nat} {e : Nm}
    (h0 : tn0.Consistent) (hfresh : ∀ e ∈ tn0.openE, ∀ k, 1 ≤ k → deltaEdge e k ∉ tn0.edges.keys)
    (hinv : OpenInv tn0 t names i) (hi : tn0.openE[i]? = some e)
    (h : TN.deltaOpen1 (t, names) (i, e) = ((t', names'), .ok ())) : OpenInv tn0 t' names' (i + 1) := by
  have hilt := (List.getElem?_eq_some_iff.1 hi).1
  have htake : tn0.openE.take (i + 1) = tn0.openE.take i ++ [e] := by
    rw [List.take_add_one, hi]; rfl
  have hdrop : tn0.openE.drop i = e :: tn0.openE.drop (i + 1) := by
    rw [List.drop_eq_getElem_cons hilt]
    congr 1
    exact (List.getElem?_eq_some_iff.1 hi).2
  have heo : e ∈ tn0.openE := List.mem_of_getElem? hi
  obtain ⟨P, hP, hPl, hPn, hPk, hPx⟩ := hinv.opn
  have hPl' : P.length = i := by rw [hPl, List.length_take]; omega
  unfold TN.deltaOpen1 at h
  cases hg : names.get? e with
  | none =>
    simp only [hg, Prod.mk.injEq, and_true] at h
    obtain ⟨rfl, rfl⟩ := h
    have hnk : e ∉ names.keys := Dict.get?_eq_none.1 hg
    have hget : ∀ x k, names.get? x = some k → (names.set e 0).get? x = some k := by
      intro x k hx
      rw [Dict.get?_set, if_neg]
      · exact hx
      · rintro rfl; rw [hg] at hx; cases hx
    have hget' : ∀ x k, (names.set e 0).get? x = some k → x = e ∧ k = 0 ∨ names.get? x = some k := by
      intro x k hx
      rw [Dict.get?_set] at hx
      split at hx
      · next hxe => cases hx; exact Or.inl ⟨hxe.symm, rfl⟩
      · exact Or.inr hx
    refine { hinv with
      names_nodup := Dict.nodup_keys_set hinv.names_nodup e 0
      names_iff := fun x => ?_
      edges := fun x hx => ?_
      newE := fun x k j hx h1 h2 => ?_
      opn := ?_
      ten := fun n r hr => ?_ }
    · rw [Dict.mem_keys_set, hinv.names_iff, htake, List.mem_append, List.mem_singleton, or_comm]
    · rcases hinv.edges x hx with h1 | ⟨x', k, j, h1, h2⟩
      · exact Or.inl h1
      · exact Or.inr ⟨x', k, j, hget x' k h1, h2⟩
    · rcases hget' x k hx with ⟨_, rfl⟩ | hx
      · omega
      · exact hinv.newE x k j hx h1 h2
    · refine ⟨P ++ [e], by rw [hP, hdrop]; simp, by rw [htake]; simp [hPl], ?_, fun x hx => ?_, ?_⟩
      · rw [List.nodup_append]
        refine ⟨hPn, by simp, ?_⟩
        rintro x hx y hy rfl
        rw [List.mem_singleton] at hy
        subst hy
        rcases hPx x hx with h1 | ⟨x', k, j, h1, h2, h3, rfl⟩
        · exact hnk h1
        · have hx' : x' ∈ tn0.openE := List.mem_of_mem_take ((hinv.names_iff x').1 (Dict.mem_keys_of_get? h1))
          exact hfresh x' hx' j h2 (h0.open_exist _ heo)
      · rcases Dict.mem_keys_set.1 hx with rfl | hx
        · simp
        · exact List.mem_append_left _ (hPk x hx)
      · intro x hx
        rw [List.mem_append, List.mem_singleton] at hx
        rcases hx with hx | rfl
        · rcases hPx x hx with h1 | ⟨x', k, j, h1, h2⟩
          · exact Or.inl (Dict.mem_keys_set.2 (Or.inr h1))
          · exact Or.inr ⟨x', k, j, hget x' k h1, h2⟩
        · exact Or.inl (Dict.mem_keys_set.2 (Or.inl rfl))
    · rcases hinv.ten n r hr with h1 | ⟨x', k, j, a, h1, h2⟩
      · exact Or.inl h1
      · exact Or.inr ⟨x', k, j, a, hget x' k h1, h2⟩
  | some k =>
    simp only [hg] at h
    cases hed : t.edges.get? e with
    | none => simp [hed] at h
    | some er =>
      simp only [hed] at h
      cases hdm : er.dim with
      | none => simp [hdm] at h
      | some d =>
        simp only [hdm] at h
        split at h
        swap
        · simp at h
        next t1 m hadd =>
        simp only [Prod.mk.injEq, and_true] at h
        obtain ⟨rfl, rfl⟩ := h
        obtain ⟨hn, hnodes, hopen, hext, hdim⟩ := addNode_array hadd
        have hti : t.openE[i]? = some e := by
          rw [hP, hdrop, List.getElem?_append_right (by omega), hPl']; simp
        have hnew : deltaEdge e (k + 1) ∉ t.edges.keys := by
          intro hc
          rcases hinv.edges _ hc with h1 | ⟨x', k', j, h1, h2, h3, h4⟩
          · exact hfresh e heo (k + 1) (by omega) h1
          · obtain ⟨rfl, rfl⟩ := deltaEdge_inj h4
            rw [hg] at h1
            cases h1
            omega
        have hnewk : deltaEdge e (k + 1) ∈ t1.edges.keys := (hext.keys _).2 (Or.inr (by simp))
        have hcons1 : t1.Consistent := hinv.cons.addNode (by simp) hadd
        have hatt : ∀ x, t1.Attached x ↔ t.Attached x ∨ x = e ∨ x = deltaEdge e (k + 1) := by
          intro x
          rw [attached_append hn hnodes]
          simp
        have heatt : t1.Attached e := (hatt e).2 (Or.inr (Or.inl rfl))
        have hdims1 : t1.DimsKnown := by
          refine dimsKnown_addNode hadd rfl hinv.dims ?_
          intro x hx hxk
          simp only [List.mem_cons, List.not_mem_nil, or_false] at hx
          rcases hx with rfl | rfl
          · exact Or.inr (List.mem_of_getElem? hti)
          · exact absurd hxk hnew
        have hset : t1.openE.set i (deltaEdge e (k + 1)) = (P ++ [deltaEdge e (k + 1)]) ++ tn0.openE.drop (i + 1) := by
          rw [hopen, hP, hdrop, List.set_append_right _ _ (by omega), hPl']
          simp
        have hget : ∀ x k', names.get? x = some k' → x ≠ e → (names.set e (k + 1)).get? x = some k' := by
          intro x k' hx hne
          rw [Dict.get?_set, if_neg (Ne.symm hne)]
          exact hx
        have hgete : (names.set e (k + 1)).get? e = some (k + 1) := by rw [Dict.get?_set, if_pos rfl]
        have hold : ∀ x, (∃ x' k' j, names.get? x' = some k' ∧ 1 ≤ j ∧ j ≤ k' ∧ x = deltaEdge x' j) →
            ∃ x' k' j, (names.set e (k + 1)).get? x' = some k' ∧ 1 ≤ j ∧ j ≤ k' ∧ x = deltaEdge x' j := by
          rintro x ⟨x', k', j, h1, h2, h3, h4⟩
          by_cases hxe : x' = e
          · subst hxe
            rw [hg] at h1
            cases h1
            exact ⟨x', k + 1, j, hgete, h2, by omega, h4⟩
          · exact ⟨x', k', j, hget x' k' h1 hxe, h2, h3, h4⟩
        have hekeys : e ∈ names.keys := Dict.mem_keys_of_get? hg
        have hkeys : ∀ x, x ∈ (names.set e (k + 1)).keys ↔ x ∈ names.keys := by
          intro x
          rw [Dict.mem_keys_set]
          exact ⟨fun h => h.elim (fun h => h ▸ hekeys) id, Or.inr⟩
        exact {
          cons := consistent_setOpen hcons1 hnewk i
          dims := by
            intro x hx
            rcases hx with hx | hx
            · exact hdims1 x (Or.inl hx)
            · rcases List.mem_or_eq_of_mem_set hx with h1 | rfl
              · exact hdims1 x (Or.inr h1)
              · exact hdims1 _ (Or.inl ((hatt _).2 (Or.inr (Or.inr rfl))))
          ready := by
            have h1 := ready_addNode hadd rfl hinv.ready
            refine ⟨h1.nodes, fun x hx => ?_⟩
            rcases List.mem_or_eq_of_mem_set hx with h2 | rfl
            · exact h1.opens x h2
            · obtain ⟨r2, hr2, hd2⟩ := hdim 1 (deltaEdge e (k + 1)) d rfl rfl
              exact ⟨r2, d, hr2, hd2⟩
          value := fun val _ idx => by
            rw [value_eye hadd hinv.cons hinv.dims hed hdm hti hnew idx]
            exact hinv.value val idx
          shp := by
            rw [← hinv.shp]
            rw [shape?_eq, shape?_eq]
            show dimsOf t1.edges (t1.openE.set i _) = _
            have hsame : ∀ x ∈ t.openE, (t1.edges.get? x).map EdgeRec.dim = (t.edges.get? x).map EdgeRec.dim := by
              intro x hx
              obtain ⟨xr, xd, hx1, hx2, _⟩ := hinv.dims x (Or.inr hx)
              obtain ⟨r', hr', _, hd'⟩ := hext.grow.ent x xr hx1
              rw [hr', hx1, Option.map_some, Option.map_some, hd' xd hx2, hx2]
            obtain ⟨r2, hr2, hd2⟩ := hdim 1 (deltaEdge e (k + 1)) d rfl rfl
            rw [hset, hP, hdrop, dimsOf_append, dimsOf_append, dimsOf_append]
            rw [dimsOf_congr (fun x hx => hsame x (by rw [hP]; simp [hx])),
              dimsOf_congr (l := tn0.openE.drop (i + 1)) (fun x hx => hsame x (by rw [hP, hdrop]; simp [hx]))]
            rw [dimsOf_cons t.edges e, dimsOf_cons t1.edges, hed, hr2, Option.map_some, Option.map_some, hd2, hdm]
            cases dimsOf t.edges P <;> cases dimsOf t.edges (tn0.openE.drop (i + 1)) <;> simp [dimsOf]
          names_nodup := Dict.nodup_keys_set hinv.names_nodup e _
          names_iff := fun x => by
            rw [hkeys, hinv.names_iff, htake, List.mem_append, List.mem_singleton]
            refine ⟨Or.inl, ?_⟩
            rintro (h1 | rfl)
            · exact h1
            · exact (hinv.names_iff x).1 hekeys
          edges := fun x hx => by
            rcases (hext.keys x).1 hx with h1 | h1
            · rcases hinv.edges x h1 with h2 | h2
              · exact Or.inl h2
              · exact Or.inr (hold x h2)
            · simp only [List.mem_cons, List.not_mem_nil, or_false] at h1
              rcases h1 with rfl | rfl
              · exact Or.inl (h0.open_exist _ heo)
              · exact Or.inr ⟨e, k + 1, k + 1, hgete, by omega, le_refl _, rfl⟩
          grow := hinv.grow.trans hext.grow
          att := fun x hx => (hatt x).2 (Or.inl (hinv.att x hx))
          newE := fun x k' j hx h1 h2 => by
            have hkeep : ∀ x k' j, names.get? x = some k' → 1 ≤ j → j ≤ k' → t1.Attached x ∧ t1.Attached (deltaEdge x j) ∧
                ∃ r, t1.edges.get? (deltaEdge x j) = some r ∧ r.fix = none := by
              intro x k' j hx h1 h2
              obtain ⟨h3, h4, r, h5, h6⟩ := hinv.newE x k' j hx h1 h2
              obtain ⟨r', hr', hf', _⟩ := hext.grow.ent _ r h5
              exact ⟨(hatt x).2 (Or.inl h3), (hatt _).2 (Or.inl h4), r', hr', by rw [hf', h6]⟩
            rw [Dict.get?_set] at hx
            split at hx
            · next hxe =>
              subst hxe
              cases hx
              by_cases hj : j = k + 1
              · subst hj
                obtain ⟨r, hr⟩ := Dict.exists_get? hnewk
                exact ⟨heatt, (hatt _).2 (Or.inr (Or.inr rfl)), r, hr, hext.nofix _ r hnew hr⟩
              · exact hkeep e k j hg h1 (by omega)
            · exact hkeep x k' j hx h1 h2
          opn := by
            refine ⟨P ++ [deltaEdge e (k + 1)], hset, by rw [htake]; simp [hPl], ?_,
              fun x hx => List.mem_append_left _ (hPk x ((hkeys x).1 hx)), ?_⟩
            · rw [List.nodup_append]
              refine ⟨hPn, by simp, ?_⟩
              rintro x hx y hy rfl
              rw [List.mem_singleton] at hy
              subst hy
              exact hnew (hinv.cons.open_exist _ (by rw [hP]; simp [hx]))
            · intro x hx
              rw [List.mem_append, List.mem_singleton] at hx
              rcases hx with hx | rfl
              · rcases hPx x hx with h1 | h1
                · exact Or.inl ((hkeys x).2 h1)
                · exact Or.inr (hold x h1)
              · exact Or.inr ⟨e, k + 1, k + 1, hgete, by omega, le_refl _, rfl⟩
          nodes := fun _ => by
            show t1.nodes ≠ []
            rw [hnodes]; simp
          ten := fun n r hr => by
            have hr' : t1.nodes.get? n = some r := hr
            rcases get?_append_one hn hnodes hr' with h1 | ⟨h1, h2⟩
            · rcases hinv.ten n r h1 with h2 | ⟨x', k', j, a, h2, h3, h4, h5⟩
              · exact Or.inl h2
              · refine Or.inr ?_
                by_cases hxe : x' = e
                · subst hxe
                  rw [hg] at h2
                  cases h2
                  exact ⟨x', k + 1, j, a, hgete, h3, by omega, h5⟩
                · exact ⟨x', k', j, a, hget x' k' h2 hxe, h3, h4, h5⟩
            · exact Or.inr ⟨e, k + 1, k + 1, _, hgete, by omega, le_refl _, h1, by rw [h2]⟩ }

theorem openInv_loop {tn0 t t' : TN (TVal R)} {names names' : Dict Nm Nat} {i : Nat} {rest : List Nm}
    (h0 : tn0.Consistent) (hfresh : ∀ e ∈ tn0.openE, ∀ k, 1 ≤ k → deltaEdge e k ∉ tn0.edges.keys)
    (hinv : OpenInv tn0 t names i) (hrest : tn0.openE.drop i = rest)
    (h : forLoop TN.deltaOpen1 ((List.range' i rest.length).zip rest) (t, names) = ((t', names'), .ok ())) :
    OpenInv tn0 t' names' (i + rest.length) := by
  induction rest generalizing i t names with
  | nil => simp [forLoop] at h; obtain ⟨rfl, rfl⟩ := h; simpa using hinv
  | cons e rest ih =>
    rw [List.length_cons, List.range'_succ, List.zip_cons_cons] at h
    obtain ⟨⟨t1, n1⟩, h1, h2⟩ := forLoop_cons_ok h
    have hi : tn0.openE[i]? = some e := by
      have : (tn0.openE.drop i)[0]? = some e := by rw [hrest]; rfl
      simpa using this
    have := ih (openInv_step h0 hfresh hinv hi h1) (by
      rw [← List.drop_drop, hrest]; rfl) h2
    rw [List.length_cons]
    rwa [Nat.add_right_comm] at this

/-- The state during the second loop: the edges in `done` are in canonical form. -/
structure DiagInv (tn0 t : TN (TVal R)) (done : List Nm) : Prop where
  cons : t.Consistent
  dims : t.DimsKnown
  ready : t.Ready
  value : ∀ (val : TVal R → List Nat → R) [ArrVal val] idx, t.value val idx = tn0.value val idx
  shp : t.shape? = tn0.shape?
  opn : t.openE = tn0.openE
  edges : ∀ x, x ∈ t.edges.keys ↔ x ∈ tn0.edges.keys
  att : ∀ e, tn0.Attached e → t.Attached e
  fixes : ∀ e r, t.edges.get? e = some r → ∃ r0, tn0.edges.get? e = some r0 ∧
    (r.fix = r0.fix ∨ r.fix = none ∧ e ∈ tn0.openE) ∧ ∀ d, r0.dim = some d → r.dim = some d
  good : ∀ e ∈ done, t.Attached e ∧ ∃ r, t.edges.get? e = some r ∧ r.fix = none
  nodes : tn0.nodes ≠ [] → t.nodes ≠ []
  ten : ∀ n r, t.nodes.get? n = some r → tn0.nodes.get? n = some r ∨ ∃ e a, e ∈ done ∧
    n = deltaNode e 0 ∧ r.ten = some (.ten (some a))

theorem diagInv_step {tn0 t t' : TN (TVal R)} {att : Nm → Bool} {done : List Nm} {p : Nm × Nat}
    (hinv : DiagInv tn0 t done) (hp : p.1 ∈ tn0.openE)
    (hatt : att p.1 = true ∨ p.2 ≠ 0 → tn0.Attached p.1)
    (h : TN.deltaDiag1 att t p = (t', .ok ())) : DiagInv tn0 t' (p.1 :: done) := by
  unfold TN.deltaDiag1 at h
  obtain ⟨e, k⟩ := p
  simp only at hp hatt h ⊢
  have heo : e ∈ t.openE := by rw [hinv.opn]; exact hp
  cases hed : t.edges.get? e with
  | none => simp [hed] at h
  | some er =>
    simp only [hed] at h
    split at h
    · next hcond =>
      cases hdm : er.dim with
      | none => simp [hdm] at h
      | some d =>
        simp only [hdm] at h
        split at h
        swap
        · simp at h
        next t1 m hadd =>
        simp only [Prod.mk.injEq, and_true] at h
        subst h
        obtain ⟨hn, hnodes, hopen, hext, hdim⟩ := addNode_array hadd
        have hn' : deltaNode e 0 ∉ t.nodes.keys := hn
        have hat1 : ∀ x, t1.Attached x ↔ t.Attached x ∨ x = e := by
          intro x
          rw [attached_append hn hnodes]
          simp only [List.mem_singleton]
          exact Iff.rfl
        have hpk : (t.popFix e).edges.keys = t.edges.keys :=
          Dict.keys_modify t.edges e fun r => { r with fix := none }
        have hek : e ∈ t.edges.keys := Dict.mem_keys_of_get? hed
        have hopen' : t1.openE = t.openE := hopen
        have hget : ∀ x xr, t.edges.get? x = some xr → ∃ r, t1.edges.get? x = some r ∧
            (r.fix = if x = e then none else xr.fix) ∧ ∀ d, xr.dim = some d → r.dim = some d := by
          intro x xr hx
          have h1 := popFix_get? t e x
          rw [hx] at h1
          by_cases hxe : x = e
          · rw [if_pos hxe] at h1 ⊢
            obtain ⟨r', h2, h3, h4⟩ := hext.grow.ent x _ h1
            exact ⟨r', h2, h3, h4⟩
          · rw [if_neg hxe] at h1 ⊢
            exact hext.grow.ent x _ h1
        exact {
          cons := (consistent_popFix hinv.cons e).addNode (by simp) hadd
          dims := dimsKnown_addNode hadd rfl (dimsKnown_popFix hinv.dims e) (fun x hx _ => by
            rw [List.mem_singleton] at hx
            subst hx
            exact Or.inr heo)
          ready := ready_addNode hadd rfl (ready_popFix hinv.ready e)
          value := fun val _ idx => by
            rw [value_diag hadd hinv.cons hinv.dims hed hdm heo idx]
            exact hinv.value val idx
          shp := by
            rw [← hinv.shp, shape?_eq, shape?_eq, hopen']
            refine dimsOf_congr fun x hx => ?_
            obtain ⟨xr, xd, hx1, hx2, _⟩ := hinv.dims x (Or.inr hx)
            obtain ⟨r, hr, _, hd⟩ := hget x xr hx1
            rw [hr, hx1, Option.map_some, Option.map_some, hd xd hx2, hx2]
          opn := by rw [hopen', hinv.opn]
          edges := by
            intro x
            rw [← hinv.edges, hext.keys, hpk, List.mem_singleton]
            exact ⟨fun h => h.elim id fun h => h ▸ hek, Or.inl⟩
          att := fun x hx => (hat1 x).2 (Or.inl (hinv.att x hx))
          fixes := by
            intro x r hr
            have hxk : x ∈ t.edges.keys := by
              have := (hext.keys x).1 (Dict.mem_keys_of_get? hr)
              rw [hpk, List.mem_singleton] at this
              exact this.elim id fun h => h ▸ hek
            obtain ⟨xr, hxr⟩ := Dict.exists_get? hxk
            obtain ⟨r0, h0, hf0, hd0⟩ := hinv.fixes x xr hxr
            obtain ⟨r1, hr1, hf1, hd1⟩ := hget x xr hxr
            rw [hr] at hr1
            cases hr1
            refine ⟨r0, h0, ?_, fun d hd => hd1 d (hd0 d hd)⟩
            rw [hf1]
            by_cases hxe : x = e
            · simp [hxe, hp]
            · rw [if_neg hxe]; exact hf0
          good := by
            intro x hx
            rw [List.mem_cons] at hx
            rcases hx with rfl | hx
            · obtain ⟨r, hr, hf, _⟩ := hget _ er hed
              rw [if_pos rfl] at hf
              exact ⟨(hat1 _).2 (Or.inr rfl), r, hr, hf⟩
            · obtain ⟨h1, xr, hxr, hxf⟩ := hinv.good x hx
              obtain ⟨r, hr, hf, _⟩ := hget x xr hxr
              refine ⟨(hat1 x).2 (Or.inl h1), r, hr, ?_⟩
              rw [hf, hxf, ite_self]
          nodes := fun _ => by rw [hnodes]; simp
          ten := fun n r hr => by
            rcases get?_append_one hn hnodes hr with h1 | ⟨h1, h2⟩
            · rcases hinv.ten n r h1 with h2 | ⟨x, a, h2, h3⟩
              · exact Or.inl h2
              · exact Or.inr ⟨x, a, by simp [h2], h3⟩
            · exact Or.inr ⟨e, _, by simp, h1, by rw [h2]⟩ }
    · next hcond =>
      simp only [Prod.mk.injEq, and_true] at h
      subst h
      refine { hinv with good := ?_, ten := fun n r hr => (hinv.ten n r hr).imp_right fun ⟨x, a, h1, h2⟩ =>
        ⟨x, a, by simp [h1], h2⟩ }
      intro x hx
      rw [List.mem_cons] at hx
      rcases hx with rfl | hx
      · simp only [Bool.or_eq_true, Bool.and_eq_true, Bool.not_eq_true', beq_iff_eq, not_or, not_and] at hcond
        refine ⟨hinv.att _ (hatt ?_), er, hed, ?_⟩
        · by_cases hb : att x = true
          · exact Or.inl hb
          · exact Or.inr (hcond.2 (by simpa using hb))
        · simpa using hcond.1
      · exact hinv.good x hx

theorem diagInv_loop {tn0 t t' : TN (TVal R)} {att : Nm → Bool} {done : List Nm} {l : Dict Nm Nat}
    (hinv : DiagInv tn0 t done) (hl : ∀ p ∈ l, p.1 ∈ tn0.openE)
    (hatt : ∀ p ∈ l, att p.1 = true ∨ p.2 ≠ 0 → tn0.Attached p.1)
    (h : forLoop (TN.deltaDiag1 att) l t = (t', .ok ())) : ∃ done', DiagInv tn0 t' done' ∧ ∀ e, e ∈ l.keys → e ∈ done' := by
  have gen : ∃ done', DiagInv tn0 t' done' ∧ ∀ e, (e ∈ l.keys ∨ e ∈ done) → e ∈ done' := by
    induction l generalizing t done with
    | nil =>
      simp [forLoop] at h
      subst h
      exact ⟨done, hinv, fun e he => he.elim (by simp [Dict.keys]) id⟩
    | cons p l ih =>
      obtain ⟨t1, h1, h2⟩ := forLoop_cons_ok h
      obtain ⟨done', h3, h4⟩ := ih (diagInv_step hinv (hl p (by simp)) (hatt p (by simp)) h1)
        (fun q hq => hl q (by simp [hq])) (fun q hq => hatt q (by simp [hq])) h2
      refine ⟨done', h3, fun e he => h4 e ?_⟩
      rcases he with he | he
      · rcases List.mem_cons.1 (show e ∈ p.1 :: Dict.keys l from he) with rfl | h5
        · right; simp
        · left; exact h5
      · right; simp [he]
  obtain ⟨done', h1, h2⟩ := gen
  exact ⟨done', h1, fun e he => h2 e (Or.inl he)⟩

end Verif
