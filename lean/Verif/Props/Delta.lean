import Verif.Lemmas.Delta
import Verif.Lemmas.AddTotal
import Verif.Spec.Canonical
/-! # C44: `complete_delta` makes a network summable and keeps its value -/

set_option linter.unusedSectionVars false

namespace Verif

variable {R : Type} [CommSemiring R] [Star R]

/-- None of the edge names `(e, k)` that `complete_delta` may introduce is in use. -/
def DeltaFresh {τ : Type} (tn : TN τ) : Prop := ∀ e ∈ tn.openE, ∀ k, 1 ≤ k → deltaEdge e k ∉ tn.edges.keys

theorem deltaBody_spec {tn tn' : TN (TVal R)} (hc : tn.Consistent) (hk : tn.DimsKnown) (hr : tn.Ready)
    (hfresh : DeltaFresh tn) (h : tn.deltaBody = (tn', .ok ())) :
    tn'.Consistent ∧ tn'.DimsKnown ∧ tn'.Ready ∧ (∀ (val : TVal R → List Nat → R) [ArrVal val] idx, tn'.value val idx = tn.value val idx) ∧
    tn'.shape? = tn.shape? ∧ tn'.Canonical ∧
    (∀ e r, tn'.edges.get? e = some r → r.fix = none ∨ ∃ r0, tn.edges.get? e = some r0 ∧ r.fix = r0.fix ∧
      ∀ d, r0.dim = some d → r.dim = some d) ∧
    (∀ n r, tn'.nodes.get? n = some r → tn.nodes.get? n = some r ∨
      (n = .str "*" ∨ ∃ e k, n = deltaNode e k) ∧ ∃ a, r.ten = some (.ten (some a))) ∧
    (∀ e ∈ tn.openE, e ∈ tn'.openE) ∧
    ∀ e r0, tn.edges.get? e = some r0 → e ∉ tn.openE → ∃ r, tn'.edges.get? e = some r ∧ r.fix = r0.fix := by
  unfold TN.deltaBody at h
  simp only at h
  -- the start: a scalar node when there is none
  have hstart : ∀ (tn1 : TN (TVal R)) (m : Nm),
      (if tn.nodes.isEmpty then tn.addNode (some (.str "*")) (.str "*") (some []) (.ten (some oneArr)) false
        else (tn, Except.ok (.str "*"))) = (tn1, .ok m) →
      tn1.Consistent ∧ tn1.DimsKnown ∧ tn1.Ready ∧ (∀ (val : TVal R → List Nat → R) [ArrVal val] idx, tn1.value val idx = tn.value val idx) ∧
      tn1.shape? = tn.shape? ∧ tn1.openE = tn.openE ∧ (∀ x, x ∈ tn1.edges.keys ↔ x ∈ tn.edges.keys) ∧
      tn1.nodes ≠ [] ∧ (∀ x, tn1.Attached x ↔ tn.Attached x) ∧
      (∀ e r, tn1.edges.get? e = some r → ∃ r0, tn.edges.get? e = some r0 ∧ r.fix = r0.fix ∧
        ∀ d, r0.dim = some d → r.dim = some d) ∧
      ∀ n r, tn1.nodes.get? n = some r → tn.nodes.get? n = some r ∨
        n = .str "*" ∧ ∃ a, r.ten = some (.ten (some a)) := by
    intro tn1 m h1
    cases hempty : tn.nodes.isEmpty with
    | false =>
      simp only [hempty, Bool.false_eq_true, if_false, Prod.mk.injEq, Except.ok.injEq] at h1
      obtain ⟨rfl, _⟩ := h1
      exact ⟨hc, hk, hr, fun _ _ _ => rfl, rfl, rfl, fun _ => Iff.rfl, by simpa using hempty, fun _ => Iff.rfl,
        fun e r he => ⟨r, he, rfl, fun _ h => h⟩, fun _ _ h => Or.inl h⟩
    | true =>
      simp only [hempty, if_true] at h1
      obtain ⟨hn, hnodes, hopen, hext, _⟩ := addNode_array h1
      have hdomeq : ∀ x, tn.Attached x ∨ x ∈ tn.openE → tn1.dom x = tn.dom x := by
        intro x hx
        obtain ⟨xr, xd, hx1, hx2, _⟩ := hk x hx
        exact dom_grow rfl rfl hext.grow hx1 hx2
      refine ⟨hc.addNode (by simp) h1, dimsKnown_addNode h1 rfl hk (by simp), ready_addNode h1 rfl hr, ?_, ?_, hopen,
        ?_, by rw [hnodes]; simp, ?_, ?_, fun k r hk => (get?_append_one hn hnodes hk).imp_right fun h => ⟨h.1, oneArr, by rw [h.2]⟩⟩
      · intro val _ idx
        show einsum tn1.dom (tn1.factors val) tn1.openE idx = _
        rw [factors_append hnodes, hopen]
        have hval : (NodeRec.factor val { legs := [], ten := some (TVal.ten (some oneArr)), frozen := false } :
            Factor Nm R) = ⟨[], (oneArr : Arr R).get⟩ := by simp [NodeRec.factor, ArrVal.arr]
        rw [hval, einsum_scalar_one _ _ _ _ rfl]
        exact einsum_dom_congr fun x hx => hdomeq x ((TN.mem_usedEdges_factors hc.nodes_nodup val).1 hx)
      · rw [shape?_eq, shape?_eq, hopen]
        refine dimsOf_congr fun x hx => ?_
        obtain ⟨xr, xd, hx1, hx2, _⟩ := hk x (Or.inr hx)
        obtain ⟨r', hr', _, hd'⟩ := hext.grow.ent x xr hx1
        rw [hr', hx1, Option.map_some, Option.map_some, hd' xd hx2, hx2]
      · intro x; rw [hext.keys]; simp
      · intro x; rw [attached_append hn hnodes]; simp
      · intro e r he
        have hek : e ∈ tn.edges.keys := by
          have := (hext.keys e).1 (Dict.mem_keys_of_get? he)
          simpa using this
        obtain ⟨r0, hr0⟩ := Dict.exists_get? hek
        obtain ⟨r1, hr1, hf1, hd1⟩ := hext.grow.ent e r0 hr0
        rw [he] at hr1
        cases hr1
        exact ⟨r0, hr0, hf1, hd1⟩
  revert h hstart
  generalize (if tn.nodes.isEmpty then tn.addNode (some (.str "*")) (.str "*") (some []) (.ten (some oneArr)) false
    else (tn, Except.ok (.str "*"))) = start
  obtain ⟨tn1, o1⟩ := start
  cases o1 with
  | error er => intro h; simp at h
  | ok m =>
    intro h hstart
    obtain ⟨hc1, hk1, hr1, hv1, hs1, ho1, he1, hn1, ha1, hf1, ht1⟩ := hstart tn1 m rfl
    simp only at h
    have hfresh1 : ∀ e ∈ tn1.openE, ∀ k, 1 ≤ k → deltaEdge e k ∉ tn1.edges.keys := by
      intro e he k hk' hcon
      rw [ho1] at he
      exact hfresh e he k hk' ((he1 _).1 hcon)
    split at h
    · simp at h
    next tn2 names hloop =>
    rw [List.range_eq_range'] at hloop
    have hI := openInv_loop hc1 hfresh1 (openInv_start hc1 hk1 hr1) (by simp) hloop
    rw [Nat.zero_add] at hI
    have hnames : ∀ e, e ∈ names.keys ↔ e ∈ tn1.openE := by
      intro e; rw [hI.names_iff, List.take_length]
    have hD : DiagInv tn2 tn2 [] :=
      { cons := hI.cons, dims := hI.dims, ready := hI.ready, value := fun _ _ _ => rfl, shp := rfl, opn := rfl
        edges := fun _ => Iff.rfl, att := fun _ h => h, fixes := fun e r he => ⟨r, he, Or.inl rfl, fun _ h => h⟩
        good := by simp, nodes := id, ten := fun _ _ h => Or.inl h }
    obtain ⟨P, hP, hPl, hPn, hPk, hPx⟩ := hI.opn
    rw [List.drop_length, List.append_nil] at hP
    obtain ⟨done, hD', hdone⟩ := diagInv_loop hD
      (fun p hp => by rw [hP]; exact hPk p.1 (List.mem_map.2 ⟨p, hp, rfl⟩))
      (fun p hp hor => by
        have hg : names.get? p.1 = some p.2 := Dict.get?_of_mem hI.names_nodup hp
        rcases hor with h1 | h1
        · refine hI.att _ ((ha1 _).2 ?_)
          rw [List.any_eq_true] at h1
          obtain ⟨⟨n, x⟩, h2, h3⟩ := h1
          have h3 : x = p.1 := by simpa using h3
          subst h3
          obtain ⟨r, hr1, hr2⟩ := (hc.adj_iff n _).1 h2
          exact ⟨n, r, hr1, hr2⟩
        · exact (hI.newE p.1 p.2 p.2 hg (by omega) (le_refl _)).1) h
    refine ⟨hD'.cons, hD'.dims, hD'.ready, fun val _ idx => by rw [hD'.value val, hI.value val, hv1 val],
      by rw [hD'.shp, hI.shp, hs1], ?_, ?_, ?_,
      fun e he => by rw [hD'.opn, hP]; exact hPk e ((hnames e).2 (by rw [ho1]; exact he)), ?_⟩
    · have hopen : tn'.openE = P := by rw [hD'.opn, hP]
      have hcases : ∀ x ∈ P, x ∈ done ∨ (tn2.Attached x ∧ ∃ r, tn2.edges.get? x = some r ∧ r.fix = none) := by
        intro x hx
        rcases hPx x hx with h1 | ⟨e, k, j, h1, h2, h3, rfl⟩
        · exact Or.inl (hdone x h1)
        · exact Or.inr (hI.newE e k j h1 h2 h3).2
      refine ⟨by rw [hopen]; exact hPn, fun e he => ?_, fun e he r hr => ?_, ?_⟩
      · rw [hopen] at he
        rcases hcases e he with h1 | h1
        · exact (hD'.good e h1).1
        · exact hD'.att e h1.1
      · rw [hopen] at he
        rcases hcases e he with h1 | h1
        · obtain ⟨_, r', hr', hf'⟩ := hD'.good e h1
          rw [hr] at hr'
          cases hr'
          exact hf'
        · obtain ⟨r0, h2, h3, _⟩ := hD'.fixes e r hr
          obtain ⟨r1, h4, h5⟩ := h1.2
          rw [h2] at h4
          cases h4
          rcases h3 with h3 | h3
          · rw [h3, h5]
          · exact h3.1
      · exact hD'.nodes (hI.nodes hn1)
    · intro e r hr
      obtain ⟨r0, h2, h3, hd3⟩ := hD'.fixes e r hr
      rcases h3 with h3 | h3
      · rcases hI.edges e (Dict.mem_keys_of_get? h2) with h4 | ⟨x, k, j, h4, h5, h6, rfl⟩
        · obtain ⟨r1, hr1⟩ := Dict.exists_get? h4
          obtain ⟨r2, hr2, hf2, hd2⟩ := hI.grow.ent e r1 hr1
          rw [h2] at hr2
          cases hr2
          obtain ⟨r4, hr4, hf4, hd4⟩ := hf1 e r1 hr1
          exact Or.inr ⟨r4, hr4, by rw [h3, hf2, hf4], fun d hd => hd3 d (hd2 d (hd4 d hd))⟩
        · obtain ⟨_, _, r1, h7, h8⟩ := hI.newE x k j h4 h5 h6
          rw [h2] at h7
          cases h7
          exact Or.inl (by rw [h3, h8])
      · exact Or.inl h3.1
    · intro n r hr
      rcases hD'.ten n r hr with h1 | ⟨x, a, _, hx, h1⟩
      · rcases hI.ten n r h1 with h2 | ⟨x, k, j, a, _, _, _, hx, h2⟩
        · exact (ht1 n r h2).imp_right fun h => ⟨Or.inl h.1, h.2⟩
        · exact Or.inr ⟨Or.inr ⟨x, j, hx⟩, a, h2⟩
      · exact Or.inr ⟨Or.inr ⟨x, 0, hx⟩, a, h1⟩
    · intro e r0 he hno
      obtain ⟨r1, hr1⟩ := Dict.exists_get? ((he1 e).2 (Dict.mem_keys_of_get? he))
      obtain ⟨r0', hr0', hf0, _⟩ := hf1 e r1 hr1
      rw [he] at hr0'
      cases hr0'
      obtain ⟨r2, hr2, hf2, _⟩ := hI.grow.ent e r1 hr1
      obtain ⟨r3, hr3⟩ := Dict.exists_get? ((hD'.edges e).2 (Dict.mem_keys_of_get? hr2))
      obtain ⟨r2', hr2', hf3, _⟩ := hD'.fixes e r3 hr3
      rw [hr2] at hr2'
      cases hr2'
      refine ⟨r3, hr3, ?_⟩
      rcases hf3 with h3 | ⟨_, h3⟩
      · rw [h3, hf2, hf0]
      · exfalso
        rw [hP] at h3
        rcases hPx e h3 with h4 | ⟨x, k, j, h4, h5, h6, rfl⟩
        · exact hno (by rw [← ho1]; exact (hnames e).1 h4)
        · exact hfresh x (by rw [← ho1]; exact (hnames x).1 (Dict.mem_keys_of_get? h4)) j h5 (Dict.mem_keys_of_get? he)

/-- None of the node names `("*", e, k)` that `complete_delta` may introduce is in use. -/
def DeltaNodeFresh {τ : Type} (tn : TN τ) : Prop := ∀ e ∈ tn.openE, ∀ k, deltaNode e k ∉ tn.nodes.keys

theorem deltaNode_inj {e e' : Nm} {k k' : Nat} (h : deltaNode e k = deltaNode e' k') : e = e' ∧ k = k' := by
  simpa [deltaNode, Nm.triple] using h

theorem deltaOpen1_total {tn0 t : TN (TVal R)} {names : Dict Nm Nat} {i : Nat} {e : Nm} (h0 : tn0.Consistent)
    (hfresh : ∀ e ∈ tn0.openE, ∀ k, 1 ≤ k → deltaEdge e k ∉ tn0.edges.keys) (hn : DeltaNodeFresh tn0)
    (hinv : OpenInv tn0 t names i) (hi : tn0.openE[i]? = some e) :
    ∃ st, TN.deltaOpen1 (t, names) (i, e) = (st, .ok ()) := by
  have heo : e ∈ tn0.openE := List.mem_of_getElem? hi
  unfold TN.deltaOpen1
  dsimp only
  cases hg : names.get? e with
  | none => exact ⟨_, rfl⟩
  | some k =>
    dsimp only
    obtain ⟨r0, hr0⟩ := Dict.exists_get? (h0.open_exist e heo)
    obtain ⟨P, hP, hPl, _, hPk, _⟩ := hinv.opn
    obtain ⟨er, d, her, hd, _⟩ := hinv.dims e (Or.inr (by rw [hP]; exact List.mem_append_left _ (hPk e (Dict.mem_keys_of_get? hg))))
    rw [her]
    dsimp only
    rw [hd]
    dsimp only
    have hnew : deltaEdge e (k + 1) ∉ t.edges.keys := by
      intro hc
      rcases hinv.edges _ hc with h1 | ⟨x', k', j, h1, h2, h3, h4⟩
      · exact hfresh e heo (k + 1) (by omega) h1
      · obtain ⟨rfl, rfl⟩ := deltaEdge_inj h4
        rw [hg] at h1
        cases h1
        omega
    obtain ⟨t', ht'⟩ := TN.addNode_total (tn := t) (n := deltaNode e (k + 1)) (i := deltaNode e (k + 1))
      (es := [e, deltaEdge e (k + 1)]) (t := .ten (some (eyeArr d) : Option (Arr R))) (D := fun _ => d) (isOpen := false)
      (by
        intro hc
        obtain ⟨r, hr⟩ := Dict.exists_get? hc
        rcases hinv.ten _ r hr with h1 | ⟨x', k', j, a, h1, h2, h3, h4, _⟩
        · exact hn e heo (k + 1) (Dict.mem_keys_of_get? h1)
        · obtain ⟨rfl, rfl⟩ := deltaNode_inj h4
          rw [hg] at h1
          cases h1
          omega)
      (by rw [TVal.shape_def, TVal.shape]; rfl)
      (by
        intro x hx xr hxr
        simp only [List.mem_cons, List.not_mem_nil, or_false] at hx
        rcases hx with rfl | rfl
        · rw [her] at hxr; cases hxr; exact Or.inr hd
        · exact absurd (Dict.mem_keys_of_get? hxr) hnew)
    rw [ht']
    exact ⟨_, rfl⟩

theorem deltaOpen_loop_total {tn0 t : TN (TVal R)} {names : Dict Nm Nat} {i : Nat} {rest : List Nm} (h0 : tn0.Consistent)
    (hfresh : ∀ e ∈ tn0.openE, ∀ k, 1 ≤ k → deltaEdge e k ∉ tn0.edges.keys) (hn : DeltaNodeFresh tn0)
    (hinv : OpenInv tn0 t names i) (hrest : tn0.openE.drop i = rest) :
    ∃ st, forLoop TN.deltaOpen1 ((List.range' i rest.length).zip rest) (t, names) = (st, .ok ()) := by
  induction rest generalizing i t names with
  | nil => exact ⟨_, rfl⟩
  | cons e rest ih =>
    rw [List.length_cons, List.range'_succ, List.zip_cons_cons]
    have hi : tn0.openE[i]? = some e := by
      have : (tn0.openE.drop i)[0]? = some e := by rw [hrest]; rfl
      simpa using this
    obtain ⟨⟨t1, n1⟩, h1⟩ := deltaOpen1_total h0 hfresh hn hinv hi
    obtain ⟨st, h2⟩ := ih (openInv_step h0 hfresh hinv hi h1) (by rw [← List.drop_drop, hrest]; rfl)
    exact ⟨st, by rw [forLoop, h1]; exact h2⟩

theorem deltaDiag_loop_total {tn0 t : TN (TVal R)} {att : Nm → Bool} {done : List Nm} {l : Dict Nm Nat}
    (hinv : DiagInv tn0 t done) (hl : ∀ p ∈ l, p.1 ∈ tn0.openE)
    (hatt : ∀ p ∈ l, att p.1 = true ∨ p.2 ≠ 0 → tn0.Attached p.1) (hnd : l.keys.Nodup)
    (hdone : ∀ e ∈ l.keys, e ∉ done) (hn : ∀ e ∈ l.keys, deltaNode e 0 ∉ tn0.nodes.keys) :
    ∃ t', forLoop (TN.deltaDiag1 att) l t = (t', .ok ()) := by
  induction l generalizing t done with
  | nil => exact ⟨_, rfl⟩
  | cons p l ih =>
    obtain ⟨e, k⟩ := p
    have heo : e ∈ tn0.openE := hl (e, k) (by simp)
    have hnd' : e ∉ Dict.keys l ∧ (Dict.keys l).Nodup := List.nodup_cons.1 hnd
    have hstep : ∃ t', TN.deltaDiag1 att t (e, k) = (t', .ok ()) := by
      obtain ⟨er, d, her, hd, _⟩ := hinv.dims e (Or.inr (by rw [hinv.opn]; exact heo))
      unfold TN.deltaDiag1
      dsimp only
      rw [her]
      dsimp only
      split
      · rw [hd]
        dsimp only
        obtain ⟨t', ht'⟩ := TN.addNode_total (tn := t.popFix e) (n := deltaNode e 0) (i := deltaNode e 0)
          (es := [e]) (t := .ten (some (diagArr d er.fix) : Option (Arr R))) (D := fun _ => d) (isOpen := false)
          (by
            intro hc
            obtain ⟨r, hr⟩ := Dict.exists_get? hc
            rcases hinv.ten _ r hr with h1 | ⟨x', a, h1, h4, _⟩
            · exact hn e (by simp [Dict.keys]) (Dict.mem_keys_of_get? h1)
            · obtain ⟨rfl, _⟩ := deltaNode_inj h4
              exact hdone e (by simp [Dict.keys]) h1)
          (by rw [TVal.shape_def, TVal.shape]; rfl)
          (by
            intro x hx xr hxr
            rw [List.mem_singleton] at hx
            subst hx
            rw [popFix_get?, if_pos rfl, her] at hxr
            simp only [Option.map_some, Option.some.injEq] at hxr
            subst hxr
            exact Or.inr hd)
        rw [ht']
        exact ⟨_, rfl⟩
      · exact ⟨_, rfl⟩
    obtain ⟨t1, h1⟩ := hstep
    obtain ⟨t2, h2⟩ := ih (diagInv_step hinv (hl _ (by simp)) (hatt _ (by simp)) h1)
      (fun q hq => hl q (by simp [hq])) (fun q hq => hatt q (by simp [hq])) hnd'.2
      (fun x hx hc => by
        rcases List.mem_cons.1 hc with rfl | hc
        · exact hnd'.1 hx
        · exact hdone x (List.mem_cons_of_mem _ hx) hc)
      (fun x hx => hn x (List.mem_cons_of_mem _ hx))
    exact ⟨t2, by rw [forLoop, h1]; exact h2⟩

/-- `complete_delta` never raises on a network whose dimensions are known and whose names are fresh. -/
theorem deltaBody_total {tn : TN (TVal R)} (hc : tn.Consistent) (hk : tn.DimsKnown) (hr : tn.Ready)
    (hfresh : DeltaFresh tn) (hnode : DeltaNodeFresh tn) : ∃ tn', tn.deltaBody = (tn', .ok ()) := by
  unfold TN.deltaBody
  simp only
  have hstart : ∃ tn1 m, (if tn.nodes.isEmpty then
        tn.addNode (some (.str "*")) (.str "*") (some []) (.ten (some oneArr)) false
        else (tn, Except.ok (.str "*"))) = (tn1, .ok m) ∧ tn1.Consistent ∧ tn1.DimsKnown ∧ tn1.Ready ∧
        tn1.openE = tn.openE ∧ (∀ x, x ∈ tn1.edges.keys ↔ x ∈ tn.edges.keys) ∧
        (∀ x, tn1.Attached x ↔ tn.Attached x) ∧ ∀ n ∈ tn1.nodes.keys, n ∈ tn.nodes.keys ∨ n = .str "*" := by
    cases hempty : tn.nodes.isEmpty with
    | false => exact ⟨tn, _, rfl, hc, hk, hr, rfl, fun _ => Iff.rfl, fun _ => Iff.rfl, fun _ h => Or.inl h⟩
    | true =>
      have hnil : tn.nodes = [] := by simpa using hempty
      obtain ⟨tn1, h1⟩ := TN.addNode_total (tn := tn) (n := .str "*") (i := .str "*") (es := [])
        (t := .ten (some oneArr : Option (Arr R))) (D := fun _ => 0) (isOpen := false) (by rw [hnil]; simp [Dict.keys])
        (by rw [TVal.shape_def, TVal.shape]; rfl) (by intro x hx; simp at hx)
      obtain ⟨hn, hnodes, hopen, hext, _⟩ := addNode_array h1
      refine ⟨tn1, _, by simpa using h1, hc.addNode (by simp) h1, dimsKnown_addNode h1 rfl hk (by simp),
        ready_addNode h1 rfl hr, hopen, fun x => by rw [hext.keys]; simp,
        fun x => by rw [attached_append hn hnodes]; simp, fun n hn' => ?_⟩
      rw [hnodes, Dict.keys_append, List.mem_append] at hn'
      exact hn'.imp_right fun h => by simpa [Dict.keys] using h
  obtain ⟨tn1, m, h1, hc1, hk1, hr1, ho1, he1, ha1, hn1⟩ := hstart
  rw [h1]
  dsimp only
  have hfresh1 : ∀ e ∈ tn1.openE, ∀ k, 1 ≤ k → deltaEdge e k ∉ tn1.edges.keys := by
    intro e he k hk' hcon
    rw [ho1] at he
    exact hfresh e he k hk' ((he1 _).1 hcon)
  have hnode1 : DeltaNodeFresh tn1 := by
    intro e he k hcon
    rw [ho1] at he
    rcases hn1 _ hcon with h | h
    · exact hnode e he k h
    · simp [deltaNode, Nm.triple] at h
  obtain ⟨⟨tn2, names⟩, hloop⟩ := deltaOpen_loop_total hc1 hfresh1 hnode1 (openInv_start hc1 hk1 hr1)
    (rest := tn1.openE) (by simp)
  have hI := openInv_loop hc1 hfresh1 (openInv_start hc1 hk1 hr1) (by simp) hloop
  rw [Nat.zero_add] at hI
  rw [← List.range_eq_range'] at hloop
  rw [hloop]
  dsimp only
  have hD : DiagInv tn2 tn2 [] :=
    { cons := hI.cons, dims := hI.dims, ready := hI.ready, value := fun _ _ _ => rfl, shp := rfl, opn := rfl
      edges := fun _ => Iff.rfl, att := fun _ h => h, fixes := fun e r he => ⟨r, he, Or.inl rfl, fun _ h => h⟩
      good := by simp, nodes := id, ten := fun _ _ h => Or.inl h }
  obtain ⟨P, hP, hPl, hPn, hPk, hPx⟩ := hI.opn
  rw [List.drop_length, List.append_nil] at hP
  refine deltaDiag_loop_total hD (fun p hp => by rw [hP]; exact hPk p.1 (List.mem_map.2 ⟨p, hp, rfl⟩))
    (fun p hp hor => ?_) hI.names_nodup (by simp) (fun e he hcon => ?_)
  · have hg : names.get? p.1 = some p.2 := Dict.get?_of_mem hI.names_nodup hp
    rcases hor with h1 | h1
    · refine hI.att _ ((ha1 _).2 ?_)
      rw [List.any_eq_true] at h1
      obtain ⟨⟨n, x⟩, h2, h3⟩ := h1
      have h3 : x = p.1 := by simpa using h3
      subst h3
      obtain ⟨r, hr1, hr2⟩ := (hc.adj_iff n _).1 h2
      exact ⟨n, r, hr1, hr2⟩
    · exact (hI.newE p.1 p.2 p.2 hg (by omega) (le_refl _)).1
  · have heo : e ∈ tn1.openE := by have := (hI.names_iff e).1 he; rwa [List.take_length] at this
    obtain ⟨r, hr⟩ := Dict.exists_get? hcon
    rcases hI.ten _ r hr with h1 | ⟨x', k', j, a, h1, h2, h3, h4, _⟩
    · exact hnode1 e heo 0 (Dict.mem_keys_of_get? h1)
    · obtain ⟨_, rfl⟩ := deltaNode_inj h4
      omega

/-- C44: with fresh names `complete_delta` succeeds. -/
theorem c44_complete_delta_succeeds {tn : TN (TVal R)} (hc : tn.Consistent) (hk : tn.DimsKnown) (hr : tn.Ready)
    (hfresh : DeltaFresh tn) (hnode : DeltaNodeFresh tn) : ∃ tn', tn.completeDelta = (tn', .ok ()) := by
  unfold TN.completeDelta
  split
  · exact ⟨tn, rfl⟩
  · exact deltaBody_total hc hk hr hfresh hnode

/-- C44: a successful `complete_delta` keeps the tensor and the shape, and (unless the network already has a
node called `'*'`) leaves distinct, attached, unfixed open edges.  Partial: the edge names `(e, k)` for open
edges `e` must not be in use. -/
theorem c44_complete_delta_partial {tn tn' : TN (TVal R)} (hc : tn.Consistent) (hk : tn.DimsKnown) (hr : tn.Ready)
    (hfresh : DeltaFresh tn) (h : tn.completeDelta = (tn', .ok ())) :
    (TVal.ofTN tn').val = (TVal.ofTN tn).val ∧ tn'.shape? = tn.shape? ∧
    (.str "*" ∉ tn.nodes.keys → tn'.Canonical) := by
  unfold TN.completeDelta at h
  rw [TVal.val_ofTN, TVal.val_ofTN]
  split at h
  · next hstar =>
    simp only [Prod.mk.injEq, and_true] at h
    subst h
    exact ⟨rfl, rfl, fun hn => absurd (Dict.has_iff.1 hstar) hn⟩
  · obtain ⟨_, _, _, hv, hs, hcan, _, _, _, _⟩ := deltaBody_spec hc hk hr hfresh h
    exact ⟨funext (hv _), hs, fun _ => hcan⟩

/-- A matrix on "a", "b" with "a" open twice and fixed to {1}, "b" open, and an open edge "z" without node. -/
def deltaExample : List (Op (TVal Nat)) :=
  [.addNode (some (.int 0)) (.int 0) (some [.str "a", .str "b"]) (arrVal [2, 3] fun i => i.sum + 1) false,
   .openEdge (.str "a") none, .openEdge (.str "b") none, .openEdge (.str "a") none,
   .openEdge (.str "z") (some 2), .fixEdge (.str "a") [1] false]

/-- A checkable form of `TN.DimsKnown` for networks all of whose edges have a definite dimension. -/
def TN.dimsKnownB {τ : Type} (tn : TN τ) : Bool :=
  tn.edges.all fun p => match p.2.dim with
    | some d => match p.2.fix with
      | some l => l.all (· < d)
      | none => true
    | none => false

theorem TN.dimsKnown_of_B {τ : Type} {tn : TN τ} (hc : tn.Consistent) (h : tn.dimsKnownB = true) : tn.DimsKnown := by
  intro e he
  have hek : e ∈ tn.edges.keys := by
    rcases he with ⟨n, r, hr, hl⟩ | he
    · exact hc.legs_exist n r hr e hl
    · exact hc.open_exist e he
  obtain ⟨er, her⟩ := Dict.exists_get? hek
  have := List.all_eq_true.1 h _ (Dict.mem_of_get? her)
  cases hd : er.dim with
  | none => simp [hd] at this
  | some d =>
    refine ⟨er, d, her, hd, fun l hl x hx => ?_⟩
    simp only [hd, hl, List.all_eq_true, decide_eq_true_eq] at this
    exact this x hx

example : ∃ tn tn' : TN (TVal Nat), TN.run {} deltaExample = some tn ∧ tn.Consistent ∧ tn.DimsKnown ∧ tn.Ready ∧
    DeltaFresh tn ∧ DeltaNodeFresh tn ∧ .str "*" ∉ tn.nodes.keys ∧ tn.completeDelta = (tn', .ok ()) ∧
    tn'.openE = [.str "a", .str "b", deltaEdge (.str "a") 1, .str "z"] ∧ tn'.nodes.length = 4 := by
  have hc : TN.Consistent _ := c11_consistent_partial (ops := deltaExample)
    ⟨trivial, trivial, trivial, trivial, trivial, trivial, trivial⟩ rfl
  refine ⟨_, _, rfl, hc, TN.dimsKnown_of_B hc rfl, TN.ready_of_readyB rfl, ?_, ?_, by decide, rfl, rfl, rfl⟩
  · intro e he k hk hcon
    have h3 : deltaEdge e k ∈ [Nm.str "a", .str "b", .str "z"] := hcon
    simp [deltaEdge, Nm.pair] at h3
  · intro e he k hcon
    have h3 : deltaNode e k ∈ [Nm.int 0] := hcon
    simp [deltaNode, Nm.triple] at h3

/-- When the edge name `("a", 1)` is already used, `complete_delta` connects the second occurrence of the open
edge "a" to it and changes the tensor. -/
theorem c44_edge_clash_violated :
    ∃ (ops : List (Op (TVal Nat))) (tn tn' : TN (TVal Nat)), TN.run {} ops = some tn ∧
      tn.completeDelta = (tn', .ok ()) ∧ (TVal.ofTN tn).val [0, 0] = 2 ∧ (TVal.ofTN tn').val [0, 0] = 1 :=
  ⟨[.addNode (some (.int 0)) (.int 0) (some [.str "a"]) (arrVal [2] fun _ => 1) false,
    .addNode (some (.int 1)) (.int 1) (some [deltaEdge (.str "a") 1]) (arrVal [2] fun _ => 1) false,
    .openEdge (.str "a") none, .openEdge (.str "a") none], _, _, rfl, rfl, by decide, by decide⟩

/-- When a node is called `'*'`, `complete_delta` does nothing, although an open edge is repeated. -/
theorem c44_star_node_violated :
    ∃ (ops : List (Op (TVal Nat))) (tn tn' : TN (TVal Nat)), TN.run {} ops = some tn ∧
      tn.completeDelta = (tn', .ok ()) ∧ ¬ tn'.openE.Nodup :=
  ⟨[.addNode (some (.str "*")) (.int 0) (some [.str "a"]) (arrVal [2] fun _ => 1) false,
    .openEdge (.str "a") none, .openEdge (.str "a") none], _, _, rfl, rfl, by decide⟩

end Verif
