import Verif.Props.Encapsulate
import Verif.Lemmas.AddTotal
/-!
# Encapsulating: what is left, and when it succeeds
-/

namespace Verif

variable {τ : Type}

/-- A successful `encapsulate`: the names. -/
theorem encapsulate_names [NetTensor τ] {tn tn' : TN τ} {ns opn : List Nm} {name : Option Nm} {ident n : Nm}
    (hid : name = none → ident ∉ tn.nodes.keys) (h : tn.encapsulate ns opn name ident = (tn', .ok n)) :
    n = name.getD ident ∧ ns.Nodup ∧ (∀ x ∈ ns, x ∈ tn.nodes.keys) ∧ n ∉ tn.nodes.keys.filter (fun m => !(ns.contains m)) ∧
      tn'.nodes.keys = tn.nodes.keys.filter (fun m => !(ns.contains m)) ++ [n] := by
  unfold TN.encapsulate at h
  split at h
  · simp at h
  next stn hs =>
  obtain ⟨hns, hopn, f, E1, hf, _⟩ := TN.subtn_ok hs
  obtain ⟨hn, hnt, legs, frozen, E', hl, htn', _⟩ := TN.addNode_ok h
  have hnew : n ∉ Dict.keys (tn.nodes.filterKeys fun m => !(ns.contains m)) := by
    cases name with
    | none =>
      rw [hn, Dict.keys_filterKeys]
      exact fun hcon => hid rfl (List.mem_filter.1 hcon).1
    | some m =>
      rw [hn]
      exact Dict.has_eq_false.1 hnt
  refine ⟨hn, hns, fun x hx => ?_, ?_, ?_⟩
  · obtain ⟨r, hr, _⟩ := hf x hx
    exact Dict.mem_keys_of_get? hr
  · rw [← Dict.keys_filterKeys]; exact hnew
  · rw [htn']
    show Dict.keys (Dict.set (tn.nodes.filterKeys fun m => !(ns.contains m)) n _) = _
    rw [Dict.set_eq_append hnew, Dict.keys_append, Dict.keys_filterKeys]
    rfl

/-- No edge is fixed. -/
def NoFix (tn : TN τ) : Prop := ∀ e r, tn.edges.get? e = some r → r.fix = none

theorem NoFix.boundary {tn : TN τ} (h : NoFix tn) (ns : List Nm) : BoundaryFree tn ns :=
  fun e r hr _ _ => h e r hr

/-- `add_node` with a new name succeeds when the dimensions of the tensor fit, and keeps dimensions that fit. -/
theorem TN.addNode_fits [HasShape τ] {tn : TN τ} {n i : Nm} {es S : List Nm} {t : τ} {D : Nm → Nat}
    (hn : n ∉ tn.nodes.keys) (hs : HasShape.shape t = some ((es.map D).map some)) (hf : tn.Fits D S) (hS : ∀ e ∈ es, e ∈ S) :
    ∃ tn', tn.addNode (some n) i (some es) t false = (tn', .ok n) ∧ tn'.Fits D S := by
  have hl : newLegs (some es) (HasShape.shape t) = some (es, false) := rfl
  generalize hfr : false = fr at hl
  unfold addNode
  dsimp only
  rw [if_neg (by rw [show tn.nameTaken (some n) = false from Dict.has_eq_false.2 hn]; simp), hl, hs]
  dsimp only
  rw [show (some n).getD i = n from rfl]
  obtain ⟨t1, k1, k2, k3, k4⟩ := addNodeEdges_total (tn := tn.putNode n es fr) (D := D) (S := S) (i := 0)
    (sh := (es.map D).map some) hf hS rfl
  rw [k1]
  dsimp only
  have hget : t1.nodes.get? n = some { legs := es, ten := (tn.nodes.get? n).bind NodeRec.ten, frozen := fr } := by
    rw [k2]; unfold putNode; dsimp only; rw [Dict.get?_set, if_pos rfl]
  unfold updateNode
  dsimp only
  rw [hget]
  dsimp only
  rw [hs]
  simp only [legDims]
  rw [if_pos (by simp)]
  dsimp only
  obtain ⟨t2, m1, m2, m3, m4⟩ := updateDimension_total (D := D) (S := S)
    (tn := { t1 with nodes := t1.nodes.set n { legs := es, ten := some t, frozen := fr },
                     adj := addAdjs t1.adj (es.map fun e => (n, e)) })
    (l := (es.zip ((es.map D).map some)).foldl (fun d p => d.set p.1 p.2) []) k3 (fun p hp => by
      rcases mem_foldl_set hp with h | h
      · simp at h
      · have h1 : p.1 ∈ es := (List.of_mem_zip h).1
        refine ⟨hS _ h1, (k4 _).2 (Or.inr h1), ?_⟩
        rw [List.map_map, ← List.map_id es, List.map_map, List.zip_map'] at h
        obtain ⟨x, _, rfl⟩ := List.mem_map.1 h
        rfl)
  rw [m1]
  dsimp only
  subst hfr
  exact ⟨t2, rfl, m3⟩

theorem subtnLoop_total [HasShape τ] {tn : TN τ} (hr : tn.Ready) {D : Nm → Nat} {S : List Nm}
    (hD : ∀ e er d, tn.edges.get? e = some er → er.dim = some d → d = D e)
    (hS : ∀ n r, tn.nodes.get? n = some r → ∀ e ∈ r.legs, e ∈ S) :
    ∀ (ns : List Nm) (stn : TN τ), ns.Nodup → (∀ n ∈ ns, n ∈ tn.nodes.keys) → (∀ n ∈ ns, n ∉ stn.nodes.keys) →
      stn.Fits D S → ∃ stn', forLoop (TN.subtnNodes tn) ns stn = (stn', .ok ()) ∧ stn'.Fits D S := by
  intro ns
  induction ns with
  | nil => exact fun stn _ _ _ h => ⟨stn, rfl, h⟩
  | cons n ns ih =>
    intro stn hnd hin hout hfit
    obtain ⟨r, hrn⟩ := Dict.exists_get? (hin n List.mem_cons_self)
    obtain ⟨t, sh, ht, hsh, hlen, hleg⟩ := hr.nodes n r hrn
    have hshD : sh = r.legs.map D := by
      apply List.ext_getElem?
      intro i
      rw [List.getElem?_map]
      by_cases hi : i < r.legs.length
      · have hie : r.legs[i]? = some r.legs[i] := List.getElem?_eq_getElem hi
        obtain ⟨er, her, hd⟩ := hleg i _ hie
        rw [hie]
        have h1 : sh[i]? = some sh[i] := List.getElem?_eq_getElem _
        rw [h1] at hd
        rw [h1, hD _ er _ her hd]
        rfl
      · rw [List.getElem?_eq_none (by omega), List.getElem?_eq_none (by omega)]
        rfl
    obtain ⟨s1, hs1, hf1⟩ := TN.addNode_fits (tn := stn) (n := n) (i := n) (es := r.legs) (t := t) (D := D)
      (hout n List.mem_cons_self) (by rw [hsh, hshD]) hfit (hS n r hrn)
    have hstep : TN.subtnNodes tn stn n = (s1, .ok ()) := by
      unfold TN.subtnNodes
      rw [hrn]
      dsimp only
      rw [ht]
      dsimp only
      rw [hs1]
    obtain ⟨_, r', hcopy, hn1, _⟩ := TN.subtnNodes_ok hstep
    obtain ⟨s2, hs2, hf2⟩ := ih s1 (List.nodup_cons.1 hnd).2 (fun m hm => hin m (List.mem_cons_of_mem _ hm))
      (fun m hm hc => by
        rw [hn1, Dict.keys_append] at hc
        rcases List.mem_append.1 hc with hc | hc
        · exact hout m (List.mem_cons_of_mem _ hm) hc
        · simp only [Dict.keys, List.map_cons, List.map_nil, List.mem_singleton] at hc
          exact (List.nodup_cons.1 hnd).1 (hc ▸ hm)) hf1
    refine ⟨s2, ?_, hf2⟩
    rw [forLoop, hstep]
    exact hs2

/-- The dimension of every leg, and what a successful `encapsulate` makes of a network with known dimensions. -/
theorem encapsulate_ready [NetTensor τ] {tn tn' : TN τ} {ns opn : List Nm} {name : Option Nm} {ident n : Nm}
    (hc : tn.Consistent) (hr : tn.Ready) (hid : name = none → ident ∉ tn.nodes.keys)
    (h : tn.encapsulate ns opn name ident = (tn', .ok n)) : tn'.Ready ∧ (NoFix tn → NoFix tn') := by
  have hnames := encapsulate_names hid h
  have hc' : tn'.Consistent := hc.encapsulate hid h
  unfold TN.encapsulate at h
  split at h
  · simp at h
  next stn hs =>
  obtain ⟨hns, hopn, f, E1, hf, hnodes, hopE, hsadj, hE1, _, hEs, hdim⟩ := TN.subtn_ok hs
  obtain ⟨hn, hnt, legs, frozen, E', hl, htn', hE', hdE⟩ := TN.addNode_ok h
  simp only [TN.newLegs, Option.some.injEq, Prod.mk.injEq] at hl
  obtain ⟨rfl, rfl⟩ := hl
  rw [hopE] at hE' htn' hdE
  have hedge : ∀ e r, tn.edges.get? e = some r → e ∉ tn.closedOfNodes ns →
      ∃ r', tn'.edges.get? e = some r' ∧ r'.fix = r.fix ∧ (∀ d, r.dim = some d → r'.dim = some d) := by
    intro e r her hecl
    rw [htn']
    refine hE'.grow.ent e r ?_
    show Dict.get? (tn.edges.filterKeys fun e => !((tn.closedOfNodes ns).contains e)) e = _
    rw [Dict.get?_filterKeys, if_pos (by simpa using hecl)]
    exact her
  -- dimensions of the boundary inside the sub-network
  have hbd : ∀ e ∈ opn, ∃ er d, stn.edges.get? e = some er ∧ er.dim = some d := by
    intro e he
    obtain ⟨h1, ⟨m, hm, hadj⟩, h3, h4⟩ := TN.mem_boundaryOfNodes.1 ((hopn e).1 he)
    obtain ⟨r, hrm, hel⟩ := (hc.adj_iff m e).1 hadj
    obtain ⟨r0, hr0, _, hfn⟩ := hf m hm
    rw [hrm] at hr0
    cases hr0
    obtain ⟨t, sh, ht, hsh, hlen, hleg⟩ := hr.nodes m r hrm
    obtain ⟨i, hi, hie⟩ := List.getElem_of_mem hel
    have hie' : r.legs[i]? = some e := List.getElem?_eq_some_iff.2 ⟨hi, hie⟩
    have hshi : sh[i]? = some sh[i] := List.getElem?_eq_getElem _
    obtain ⟨_, h2⟩ := hdim m hm t _ (by rw [hfn]; exact ht) hsh
    obtain ⟨r2, hr2, hd2⟩ := h2 i e sh[i] (by rw [hfn]; exact hie') (by rw [List.getElem?_map, hshi]; rfl)
    refine ⟨r2, sh[i], ?_, hd2⟩
    rw [hEs, hr2, Option.map_some, if_neg h3]
  have hshape : ∃ sh : List Nat, stn.shape? = some (sh.map some) ∧ sh.length = opn.length ∧
      ∀ (i : Nat) e, opn[i]? = some e → ∃ er, stn.edges.get? e = some er ∧ er.dim = sh[i]? := by
    unfold TN.shape?
    rw [hopE]
    clear hE' htn' hdE hopn hE1 hopE hnodes hsadj h hs
    induction opn with
    | nil => exact ⟨[], rfl, rfl, by simp⟩
    | cons e l ih =>
      obtain ⟨sh, k1, k2, k3⟩ := ih (fun x hx => hbd x (List.mem_cons_of_mem _ hx))
      obtain ⟨er, d, her, hd⟩ := hbd e List.mem_cons_self
      refine ⟨d :: sh, ?_, by simp [k2], ?_⟩
      · rw [List.mapM_cons, k1, her]
        simp [hd]
      · intro i x hx
        cases i with
        | zero =>
          simp only [List.getElem?_cons_zero, Option.some.injEq] at hx
          subst hx
          exact ⟨er, her, by simp [hd]⟩
        | succ i =>
          rw [List.getElem?_cons_succ] at hx
          rw [List.getElem?_cons_succ]
          exact k3 i x hx
  refine ⟨⟨fun m r hm => ?_, fun e he => ?_⟩, fun hnf e r her => ?_⟩
  · rw [htn'] at hm
    dsimp only at hm
    rw [Dict.get?_set] at hm
    split at hm
    · cases hm
      obtain ⟨sh, k1, k2, k3⟩ := hshape
      refine ⟨_, sh, rfl, by rw [NetTensor.shape_ofNet, k1], k2, fun i e hi => ?_⟩
      dsimp only at hi
      have hsi : sh[i]? = some sh[i]! := by
        have : i < sh.length := by
          rw [k2]
          exact (List.getElem?_eq_some_iff.1 hi).1
        rw [List.getElem?_eq_getElem this]
        simp [this]
      obtain ⟨_, h2⟩ := hdE _ (by rw [NetTensor.shape_ofNet, k1])
      obtain ⟨r2, hr2, hd2⟩ := h2 i e sh[i]! hi (by rw [List.getElem?_map, hsi]; rfl)
      exact ⟨r2, by rw [htn']; exact hr2, by rw [hd2, hsi]⟩
    · next hmn =>
      have hm' : tn.nodes.get? m = some r ∧ m ∉ ns := by
        change Dict.get? (tn.nodes.filterKeys fun m => !(ns.contains m)) m = some r at hm
        rw [Dict.get?_filterKeys] at hm
        split at hm
        · next hmm => exact ⟨hm, by simpa using hmm⟩
        · simp at hm
      obtain ⟨t, sh, ht, hsh, hlen, hleg⟩ := hr.nodes m r hm'.1
      refine ⟨t, sh, ht, hsh, hlen, fun i e hi => ?_⟩
      obtain ⟨er, her, hd⟩ := hleg i e hi
      have hel : e ∈ r.legs := List.mem_of_getElem? hi
      have hadj := (hc.adj_iff m e).2 ⟨r, hm'.1, hel⟩
      obtain ⟨r', hr', _, hd'⟩ := hedge e er her (fun hcl => hm'.2 ((TN.mem_closedOfNodes.1 hcl).2.2.1 m hadj))
      refine ⟨r', hr', ?_⟩
      have hsi : sh[i]? = some sh[i]! := by
        have : i < sh.length := by
          rw [hlen]
          exact (List.getElem?_eq_some_iff.1 hi).1
        rw [List.getElem?_eq_getElem this]
        simp [this]
      rw [hsi] at hd ⊢
      exact hd' _ hd
  · have he' : e ∈ tn.openE := by
      rw [htn'] at he
      simpa [TN.dropSub] using he
    obtain ⟨er, d, her, hd⟩ := hr.opens e he'
    obtain ⟨r', hr', _, hd'⟩ := hedge e er her (fun hcl => (TN.mem_closedOfNodes.1 hcl).2.2.2 he')
    exact ⟨r', d, hr', hd' d hd⟩
  · rw [htn'] at her
    dsimp only at her
    by_cases hk : e ∈ Dict.keys (tn.dropSub ns (tn.closedOfNodes ns)).edges
    · obtain ⟨r1, hr1⟩ := Dict.exists_get? hk
      obtain ⟨r2, hr2, hfix, _⟩ := hE'.grow.ent e r1 hr1
      rw [her] at hr2
      cases hr2
      rw [hfix]
      change Dict.get? (tn.edges.filterKeys fun e => !((tn.closedOfNodes ns).contains e)) e = some r1 at hr1
      rw [Dict.get?_filterKeys] at hr1
      split at hr1
      · exact hnf e r1 hr1
      · simp at hr1
    · exact hE'.nofix e r hk her

theorem TN.emptyOpen_dim {opn : List Nm} {e : Nm} {er : EdgeRec} (h : (TN.emptyOpen opn : TN τ).edges.get? e = some er) :
    er.dim = none := by
  have key : ∀ (l : List Nm) (t : TN τ), (∀ x r, t.edges.get? x = some r → r.dim = none) →
      ∀ x r, (l.foldl (fun (t : TN τ) e => (t.addEdge (some e) none).1) t).edges.get? x = some r → r.dim = none := by
    intro l
    induction l with
    | nil => exact fun t h => h
    | cons y l ih =>
      intro t ht
      rw [List.foldl_cons]
      refine ih _ fun x r hx => ?_
      unfold addEdge addEdgeNamed at hx
      dsimp only at hx
      split at hx
      · exact ht x r hx
      · dsimp only at hx
        rw [Dict.get?_set] at hx
        split at hx
        · cases hx; rfl
        · exact ht x r hx
  exact key opn {} (by simp [Dict.get?]) e er h

/-- `encapsulate` of nodes of a network with known dimensions succeeds if the new name is free. -/
theorem encapsulate_total [NetTensor τ] {tn : TN τ} {ns : List Nm} {z ident : Nm} (hc : tn.Consistent) (hr : tn.Ready)
    (hns : ns.Nodup) (hin : ∀ n ∈ ns, n ∈ tn.nodes.keys) (hz : z ∉ tn.nodes.keys) :
    ∃ tn', tn.encapsulate ns (tn.boundaryOfNodes ns) (some z) ident = (tn', .ok z) := by
  let D : Nm → Nat := fun e => ((tn.edges.get? e).bind EdgeRec.dim).getD 0
  have hD : ∀ e er d, tn.edges.get? e = some er → er.dim = some d → d = D e := by
    intro e er d he hd
    simp [D, he, hd]
  obtain ⟨e1, e2, e3, e4⟩ := TN.emptyOpen_spec (τ := τ) (tn.boundaryOfNodes ns)
  have hempty : (TN.emptyOpen (tn.boundaryOfNodes ns) : TN τ).Fits D tn.edges.keys := by
    intro e _ er her
    left
    exact TN.emptyOpen_dim her
  obtain ⟨stn, h1, h2⟩ := subtnLoop_total hr hD (fun n r hn e he => hc.legs_exist n r hn e he) ns
    (TN.emptyOpen (tn.boundaryOfNodes ns)) hns hin (by rw [e1]; simp [Dict.keys]) hempty
  have hsub : tn.subtn ns (tn.boundaryOfNodes ns) = .ok (TN.copyEdgeAttrs tn stn (tn.closedOfNodes ns)) := by
    unfold TN.subtn
    rw [if_pos (List.all_eq_true.2 fun n hn => Dict.has_iff.2 (hin n hn))]
    dsimp only
    rw [if_pos (by
      rw [Bool.and_eq_true, List.all_eq_true]
      exact ⟨fun e he => List.contains_iff_mem.2 he, fun e he => List.contains_iff_mem.2 he⟩), h1]
  obtain ⟨_, hopn, f, E1, hf, _, hopE, _, hE1, _, hEs, hdim⟩ := TN.subtn_ok hsub
  unfold TN.encapsulate
  rw [hsub]
  dsimp only
  rw [hopE]
  refine TN.addNode_total (D := D) ?_ ?_ ?_
  · show z ∉ Dict.keys (tn.nodes.filterKeys fun m => !(ns.contains m))
    rw [Dict.keys_filterKeys]
    exact fun hcon => hz (List.mem_filter.1 hcon).1
  · rw [NetTensor.shape_ofNet]
    unfold TN.shape?
    rw [hopE]
    have key : ∀ e ∈ tn.boundaryOfNodes ns,
        ((TN.copyEdgeAttrs tn stn (tn.closedOfNodes ns)).edges.get? e).map EdgeRec.dim = some (some (D e)) := by
      intro e he
      obtain ⟨k1, ⟨m, hm, hadj⟩, k3, k4⟩ := TN.mem_boundaryOfNodes.1 he
      obtain ⟨r, hrm, hel⟩ := (hc.adj_iff m e).1 hadj
      obtain ⟨r0, hr0, _, hfn⟩ := hf m hm
      rw [hrm] at hr0
      cases hr0
      obtain ⟨t, sh, ht, hsh, hlen, hleg⟩ := hr.nodes m r hrm
      obtain ⟨i, hi, hie⟩ := List.getElem_of_mem hel
      have hie' : r.legs[i]? = some e := List.getElem?_eq_some_iff.2 ⟨hi, hie⟩
      have hshi : sh[i]? = some sh[i] := List.getElem?_eq_getElem _
      obtain ⟨er, her, hd⟩ := hleg i e hie'
      rw [hshi] at hd
      have hDe := hD e er _ her hd
      obtain ⟨_, h2⟩ := hdim m hm t _ (by rw [hfn]; exact ht) hsh
      obtain ⟨r2, hr2, hd2⟩ := h2 i e sh[i] (by rw [hfn]; exact hie') (by rw [List.getElem?_map, hshi]; rfl)
      rw [hEs, hr2, Option.map_some, if_neg k3, Option.map_some, hd2, hDe]
    clear hopn hE1 hopE hsub h1 h2 hempty e1 e2 e3 e4
    generalize tn.boundaryOfNodes ns = l at key ⊢
    induction l with
    | nil => rfl
    | cons e l ih =>
      rw [List.mapM_cons, key e List.mem_cons_self, ih fun x hx => key x (List.mem_cons_of_mem _ hx)]
      rfl
  · intro e he er her
    change Dict.get? (tn.edges.filterKeys fun e => !((tn.closedOfNodes ns).contains e)) e = some er at her
    rw [Dict.get?_filterKeys] at her
    split at her
    · cases hd : er.dim with
      | none => exact Or.inl rfl
      | some d => exact Or.inr (by rw [hD e er d her hd])
    · simp at her

end Verif
