import Verif.Lemmas.Dims
import Verif.Spec.Shape
import Verif.Base.Shp
/-! # C12: bond dimensions are never silently changed -/

namespace Verif

variable {τ : Type}

/-- An edge present before and after keeps its definite dimension. -/
def DimKept (tn tn' : TN τ) : Prop :=
  ∀ e r r' d, tn.edges.get? e = some r → r.dim = some d → tn'.edges.get? e = some r' → r'.dim = some d

private theorem DimKept.of_grow {tn tn' : TN τ} (h : EdgesGrow tn.edges tn'.edges) : DimKept tn tn' :=
  fun e r r' d hr hd hr' => by
    obtain ⟨r2, h2, _, hd2⟩ := h.ent e r hr
    rw [hr'] at h2; cases h2; exact hd2 d hd

private theorem DimKept.of_shrink {tn tn' : TN τ} (h : EdgesShrink tn.edges tn'.edges) : DimKept tn tn' :=
  fun e r r' d hr hd hr' => by
    obtain ⟨r2, h2, hd2⟩ := h e r' hr'
    rw [hr] at h2; cases h2; exact hd2 d hd

private theorem DimKept.of_grow_shrink {tn tn' tn'' : TN τ} (h : EdgesGrow tn.edges tn'.edges)
    (h' : EdgesShrink tn'.edges tn''.edges) : DimKept tn tn'' :=
  fun e r r'' d hr hd hr'' => by
    obtain ⟨r2, h2, _, hd2⟩ := h.ent e r hr
    obtain ⟨r3, h3, hd3⟩ := h' e r'' hr''
    rw [h2] at h3; cases h3; exact hd3 d (hd2 d hd)

private theorem mergeEdges_dimKept {tn tn' : TN τ} {es : List Nm} {mt dflt : Option Nm} {m : Nm}
    (hok : tn.mergeEdges es mt dflt = (tn', .ok m)) : DimKept tn tn' := by
  unfold TN.mergeEdges at hok
  split at hok
  · simp at hok
  · next dim hdim =>
    split at hok
    · simp at hok
    · next m0 hm0 =>
      simp only at hok
      have hc1 : EdgesGrow tn.edges
          (if mt.isSome && !tn.edges.has m0 then (tn.addEdge (some m0) none).1 else tn).edges := by
        split
        · obtain ⟨E', c', h1, h2⟩ := TN.addEdge_grow tn (some m0) none
          rw [h1]; exact h2
        · exact EdgesGrow.refl _
      revert hok hc1
      generalize (if mt.isSome && !tn.edges.has m0 then (tn.addEdge (some m0) none).1 else tn) = t1
      intro hok hc1
      obtain ⟨E2, h2, g2⟩ := TN.updateDimension_frame t1 [(m0, dim)]
      revert hok h2
      generalize t1.updateDimension [(m0, dim)] = res
      obtain ⟨t2, o⟩ := res
      intro hok h2
      have h2 : t2 = { t1 with edges := E2 } := h2
      subst h2
      cases o with
      | error er => simp at hok
      | ok u =>
        simp only at hok
        have h3 := TN.mergeLoop_shrink m0 es { t1 with edges := E2 }
        revert hok h3
        generalize forLoop (TN.mergeStep m0) es { t1 with edges := E2 } = res3
        obtain ⟨t3, o3⟩ := res3
        intro hok h3
        cases o3 with
        | error er => simp at hok
        | ok u =>
          simp only at hok
          split at hok
          · simp only [Prod.mk.injEq] at hok
            rw [← hok.1]
            exact DimKept.of_grow_shrink (tn' := { t1 with edges := E2 }) (hc1.trans g2.grow) h3
          · simp at hok

private theorem encapsulate_dimKept [NetTensor τ] {tn tn' : TN τ} {ns opn : List Nm} {name : Option Nm}
    {ident n : Nm} (hok : tn.encapsulate ns opn name ident = (tn', .ok n)) : DimKept tn tn' := by
  unfold TN.encapsulate at hok
  split at hok
  · simp at hok
  · next stn hstn =>
    obtain ⟨_, hopn, f, E1, _, _, ho, _⟩ := TN.subtn_ok hstn
    obtain ⟨_, _, legs, frozen, E', hl, hs, hE, _⟩ := TN.addNode_ok hok
    simp only [TN.newLegs, Option.some.injEq, Prod.mk.injEq] at hl
    obtain ⟨rfl, rfl⟩ := hl
    intro e r r' d hr hd hr'
    subst hs
    have hr' : E'.get? e = some r' := hr'
    by_cases hc : e ∈ tn.closedOfNodes ns
    · exfalso
      have hk := (hE.keys e).1 (Dict.mem_keys_of_get? hr')
      rcases hk with hk | hk
      · have hk : e ∈ Dict.keys (tn.edges.filterKeys fun e => !((tn.closedOfNodes ns).contains e)) := hk
        rw [Dict.keys_filterKeys, List.mem_filter] at hk
        simp [hc] at hk
      · rw [ho, hopn] at hk
        unfold TN.boundaryOfNodes at hk
        rw [List.mem_filter] at hk
        simp [hc] at hk
    · have h1 : (tn.dropSub ns (tn.closedOfNodes ns)).edges.get? e = some r := by
        show Dict.get? (tn.edges.filterKeys fun e => !((tn.closedOfNodes ns).contains e)) e = _
        rw [Dict.get?_filterKeys, if_pos (by simpa using hc), hr]
      obtain ⟨r2, h2, _, hd2⟩ := hE.grow.ent e r h1
      rw [hr'] at h2; cases h2; exact hd2 d hd

/-- C12, first half, one edit: no successful edit changes the definite bond dimension of an edge that is
still there afterwards. -/
theorem c12_step_keeps_dims [NetTensor τ] {tn tn' : TN τ} {op : Op τ} (hok : tn.step op = (tn', .ok ())) :
    DimKept tn tn' := by
  have hunit : ∀ {α : Type} {r : Res τ α}, r.unit = (tn', .ok ()) → ∃ x, r = (tn', .ok x) := by
    intro α r hr
    obtain ⟨t, o⟩ := r
    cases o with
    | error e => simp [Res.unit] at hr
    | ok x => simp [Res.unit] at hr; exact ⟨x, by rw [hr]⟩
  cases op with
  | addNode name ident edges t isOpen =>
    obtain ⟨n, hn⟩ := hunit hok
    obtain ⟨_, _, legs, frozen, E', _, hs, hE, _⟩ := TN.addNode_ok hn
    exact .of_grow (by rw [hs]; exact hE.grow)
  | popNode n =>
    obtain ⟨r, hr⟩ := hunit hok
    unfold TN.popNode at hr
    split at hr
    · simp at hr
    · simp only [Prod.mk.injEq] at hr
      rw [← hr.1]; exact .of_grow (EdgesGrow.refl _)
  | removeNode n =>
    obtain ⟨r, hr⟩ := hunit hok
    unfold TN.removeNode TN.popNode at hr
    cases hn : tn.nodes.get? n with
    | none => simp [hn] at hr
    | some r0 =>
      simp only [hn, Prod.mk.injEq] at hr
      rw [← hr.1]; exact .of_grow (EdgesGrow.refl _)
  | updateNode n t =>
    obtain ⟨r, E', _, hs, hE, _⟩ := TN.updateNode_ok hok
    exact .of_grow (by rw [hs]; exact hE.grow)
  | addEdge name dim =>
    obtain ⟨r, hr⟩ := hunit hok
    obtain ⟨E', c', h1, g⟩ := TN.addEdge_grow tn name dim
    rw [hr] at h1
    have h1 : tn' = _ := h1
    exact .of_grow (by rw [h1]; exact g)
  | openEdge e dim =>
    obtain ⟨E', O', h1, g, _⟩ := TN.openEdge_frame tn e dim
    rw [show tn.openEdge e dim = _ from hok] at h1
    have h1 : tn' = _ := h1
    exact .of_grow (by rw [h1]; exact g)
  | closeEdge e =>
    have hok : (tn.closeEdge e, Except.ok ()) = (tn', .ok ()) := hok
    simp only [Prod.mk.injEq, and_true] at hok
    rw [← hok]; exact .of_grow (EdgesGrow.refl _)
  | fixEdge e vals cf =>
    have := TN.fixEdge_shrink tn e vals cf
    rw [show tn.fixEdge e vals cf = _ from hok] at this
    exact .of_shrink this
  | fixIndex i v =>
    have hok : tn.fixIndex i v = (tn', .ok ()) := hok
    unfold TN.fixIndex at hok
    split at hok
    · simp at hok
    · next e he =>
      have := TN.fixEdge_shrink tn e [v] false
      revert hok this
      generalize tn.fixEdge e [v] = res
      obtain ⟨t, o⟩ := res
      intro hok this
      cases o with
      | error er => simp at hok
      | ok u =>
        simp only [Prod.mk.injEq, and_true] at hok
        rw [← hok]; exact .of_shrink this
  | fix =>
    have hok : (tn.fixAll, Except.ok ()) = (tn', .ok ()) := hok
    simp only [Prod.mk.injEq, and_true] at hok
    rw [← hok]; exact .of_shrink (TN.fixAll_shrink tn)
  | mergeEdges es m d => obtain ⟨r, hr⟩ := hunit hok; exact mergeEdges_dimKept hr
  | rewire n leg dest =>
    have hok : tn.rewire n leg dest = (tn', .ok ()) := hok
    unfold TN.rewire at hok
    split at hok
    · simp at hok
    · next r hr =>
      split at hok
      · simp at hok
      · next t ht =>
        split at hok
        · next dim e hdim he =>
          have hg : ∃ E' c', (tn.rewireTarget dest dim).1 = { tn with edges := E', idCount := c' } ∧
              EdgesGrow tn.edges E' := by
            unfold TN.rewireTarget
            split
            · split
              · exact ⟨_, _, rfl, EdgesGrow.refl _⟩
              · exact TN.addEdge_grow _ _ _
            · exact TN.addEdge_grow _ _ _
          obtain ⟨E', c', h1, g⟩ := hg
          revert hok h1
          generalize tn.rewireTarget dest dim = res
          obtain ⟨t1, o⟩ := res
          intro hok h1
          have h1 : t1 = { tn with edges := E', idCount := c' } := h1
          cases o with
          | error er => simp at hok
          | ok m =>
            subst h1
            simp only at hok
            split at hok
            · simp at hok
            · split at hok
              · simp only [Prod.mk.injEq, and_true] at hok
                rw [← hok]; exact .of_grow g
              · split at hok
                · simp only [Prod.mk.injEq, and_true] at hok
                  rw [← hok]; exact .of_grow g
                · simp at hok
        · simp at hok
  | encapsulate ns opn name ident => obtain ⟨n, hn⟩ := hunit hok; exact encapsulate_dimKept hn

/-- The edge is present in every state of a history. -/
def StaysIn [NetTensor τ] (e : Nm) : TN τ → List (Op τ) → Prop
  | tn, [] => e ∈ tn.edges.keys
  | tn, op :: ops => e ∈ tn.edges.keys ∧ StaysIn e (tn.step op).1 ops

/-- C12, first half, over histories: an edge that is present in every state of a history of successful
edits keeps its definite bond dimension throughout. -/
theorem c12_history_keeps_dims [NetTensor τ] {e : Nm} {d : Nat} {ops : List (Op τ)} {tn tn' : TN τ}
    (hrun : tn.run ops = some tn') (hpres : StaysIn e tn ops)
    (h : ∃ r, tn.edges.get? e = some r ∧ r.dim = some d) : ∃ r, tn'.edges.get? e = some r ∧ r.dim = some d := by
  induction ops generalizing tn with
  | nil =>
    simp only [TN.run, Option.some.injEq] at hrun
    exact hrun ▸ h
  | cons op ops ih =>
    obtain ⟨r, hr, hd⟩ := h
    unfold TN.run at hrun
    have hk := fun t (ht : tn.step op = (t, .ok ())) => c12_step_keeps_dims ht
    have hp := hpres.2
    revert hrun hk hp
    generalize tn.step op = res
    obtain ⟨t, o⟩ := res
    intro hrun hk hp
    cases o with
    | error er => simp at hrun
    | ok u =>
      have he : e ∈ t.edges.keys := by cases ops with | nil => exact hp | cons _ _ => exact hp.1
      obtain ⟨r', hr'⟩ := Dict.exists_get? he
      exact ih hrun hp ⟨r', hr', hk t rfl e r r' d hr hd hr'⟩

/-- A history meeting the hypotheses of `c12_history_keeps_dims` for the edge `b`. -/
def dimsExample : List (Op Shp) :=
  [.addNode none (.int 0) (some [.str "a", .str "b"]) (shp [2, 3]) true,
    .addNode none (.int 1) (some [.str "b", .str "c"]) (shp [3, 2]) false,
    .fixEdge (.str "a") [1] false, .fix, .mergeEdges [.str "a", .str "c"] (some (.str "a")) none]

example : ∃ tn, TN.run { edges := [(.str "b", { dim := some 3 })] } dimsExample = some tn ∧
    StaysIn (.str "b") { edges := [(.str "b", { dim := some 3 })] } dimsExample := by
  refine ⟨(TN.run { edges := [(.str "b", { dim := some 3 })] } dimsExample).get (by decide), by simp, ?_⟩
  unfold dimsExample
  simp only [StaysIn]
  decide

/-- C12, second half, `add_node`: after a successful call every definite dimension of the tensor equals the
dimension of the edge on that leg (so a disagreement is always rejected). -/
theorem c12_add_node_checks [HasShape τ] {tn tn' : TN τ} {name : Option Nm} {ident n : Nm}
    {edges : Option (List Nm)} {t : τ} {isOpen : Bool} {sh : List (Option Nat)}
    (hok : tn.addNode name ident edges t isOpen = (tn', .ok n)) (hsh : HasShape.shape t = some sh) :
    ∃ r, tn'.nodes.get? n = some r ∧ r.ten = some t ∧ r.legs.length ≤ sh.length ∧
      ∀ (i : Nat) e d, r.legs[i]? = some e → sh[i]? = some (some d) →
        ∃ r, tn'.edges.get? e = some r ∧ r.dim = some d := by
  obtain ⟨_, _, legs, frozen, E', _, hs, _, hd⟩ := TN.addNode_ok hok
  refine ⟨{ legs := legs, ten := some t, frozen := frozen }, ?_, rfl, (hd sh hsh).1, ?_⟩
  · rw [hs]; show Dict.get? (Dict.set _ _ _) n = _; rw [Dict.get?_set, if_pos rfl]
  · rw [hs]; exact (hd sh hsh).2

/-- C12, second half, `update_node`, for nodes whose legs lie on distinct edges.

Full statement: the same without `r.legs.Nodup`; that is false, see `c12_update_node_violated`. -/
theorem c12_update_node_checks_partial [HasShape τ] {tn tn' : TN τ} {n : Nm} {t : τ} {r : NodeRec τ}
    {sh : List (Option Nat)} (hr : tn.nodes.get? n = some r) (hnd : r.legs.Nodup)
    (hok : tn.updateNode n t = (tn', .ok ())) (hsh : HasShape.shape t = some sh) :
    r.legs.length ≤ sh.length ∧
      ∀ (i : Nat) e d, r.legs[i]? = some e → sh[i]? = some (some d) →
        ∃ r, tn'.edges.get? e = some r ∧ r.dim = some d := by
  unfold TN.updateNode at hok
  simp only [hr, hsh] at hok
  unfold TN.legDims at hok
  by_cases hl : r.legs.length ≤ sh.length
  · rw [if_pos hl] at hok
    simp only at hok
    refine ⟨hl, fun i e d hi hd => ?_⟩
    have key : ∀ (l : List (Nm × Option Nat)) (d0 : Dict Nm (Option Nat)), (l.map Prod.fst).Nodup →
        (∀ p ∈ l, p.1 ∉ d0.keys) → (l.foldl (fun d p => d.set p.1 p.2) d0) = d0 ++ l := by
      intro l
      induction l with
      | nil => intro d0 _ _; simp
      | cons p l ih =>
        intro d0 h1 h2
        rw [List.map_cons, List.nodup_cons] at h1
        rw [List.foldl_cons, Dict.set_eq_append (h2 p (by simp)), ih _ h1.2]
        · simp
        · intro q hq
          rw [Dict.keys_append, List.mem_append, not_or]
          refine ⟨h2 q (by simp [hq]), ?_⟩
          simp only [Dict.keys, List.map_cons, List.map_nil, List.mem_singleton]
          exact fun hc => h1.1 (hc ▸ List.mem_map_of_mem hq)
    have hzip : (r.legs.zip sh).foldl (fun d p => Dict.set d p.1 p.2) [] = r.legs.zip sh := by
      rw [key]
      · simp
      · rw [List.map_fst_zip hl]; exact hnd
      · simp [Dict.keys]
    rw [hzip] at hok
    obtain ⟨r', hr', hd'⟩ := TN.updateDimension_ok hok (e, some d) (List.mem_iff_getElem?.2 ⟨i, by
      rw [List.getElem?_zip_eq_some]; exact ⟨hi, hd⟩⟩)
    exact ⟨r', hr', hd' d rfl⟩
  · rw [if_neg hl] at hok; simp at hok

example : ∃ (tn tn' : TN Shp), (TN.updateNode tn (.int 0) (shp [2, 3]) = (tn', .ok ())) ∧
    ∃ r, tn.nodes.get? (.int 0) = some r ∧ r.legs.Nodup ∧ r.legs.length = 2 :=
  ⟨{ nodes := [(.int 0, { legs := [.str "a", .str "b"], ten := none })],
     edges := [(.str "a", { dim := none }), (.str "b", { dim := some 3 })] }, _, rfl, by decide⟩

/-- `update_node` accepts a tensor whose dimension on a repeated leg disagrees with the edge: only the last
of the repeated legs is compared. -/
theorem c12_update_node_violated :
    ∃ (tn tn' : TN Shp) (ops : List (Op Shp)), TN.run {} ops = some tn ∧
      tn.updateNode (.int 0) (shp [3, 2]) = (tn', .ok ()) ∧
      ∃ r, tn'.nodes.get? (.int 0) = some r ∧ r.legs[0]? = some (.str "a") ∧
        tn'.edges.get? (.str "a") = some { dim := some 2 } := by
  refine ⟨_, _, [.addNode (some (.int 0)) (.int 0) (some [.str "a", .str "a"]) (shp [2, 2]) false], rfl, rfl, ?_⟩
  exact ⟨_, rfl, rfl, rfl⟩

/-- `rewire` connects a leg to an existing edge of another dimension without complaint. -/
theorem c12_rewire_violated :
    ∃ (tn tn' : TN Shp) (ops : List (Op Shp)), TN.run {} ops = some tn ∧
      tn.rewire (.int 0) 0 (some (.str "b")) = (tn', .ok ()) ∧
      ∃ r, tn'.nodes.get? (.int 0) = some r ∧ r.ten = some (shp [2]) ∧ r.legs = [.str "b"] ∧
        tn'.edges.get? (.str "b") = some { dim := some 3 } := by
  refine ⟨_, _, [.addNode (some (.int 0)) (.int 0) (some [.str "a"]) (shp [2]) false,
    .addEdge (some (.str "b")) (some 3)], rfl, rfl, ?_⟩
  exact ⟨_, rfl, rfl, rfl, rfl⟩

end Verif
