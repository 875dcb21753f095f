import Verif.Lemmas.Subtn
import Verif.Model.Valid
import Verif.Spec.Shape
import Verif.Props.History
/-! # C15: what `is_valid` decides -/

namespace Verif

variable {τ : Type}

theorem noConflict_iff (l l' : List (Option Nat)) :
    TN.noConflict l l' = true ↔ ∀ (i d d' : Nat), l[i]? = some (some d) → l'[i]? = some (some d') → d = d' := by
  induction l generalizing l' with
  | nil => cases l' <;> simp [TN.noConflict]
  | cons a l ih =>
    cases l' with
    | nil => cases a <;> simp [TN.noConflict]
    | cons b l' =>
      have key : (∀ (i d d' : Nat), (a :: l)[i]? = some (some d) → (b :: l')[i]? = some (some d') → d = d') ↔
          ((∀ d d', a = some d → b = some d' → d = d') ∧ TN.noConflict l l' = true) := by
        rw [ih]
        constructor
        · intro h
          exact ⟨fun d d' h1 h2 => h 0 d d' (by simp [h1]) (by simp [h2]),
            fun i d d' h1 h2 => h (i + 1) d d' (by simpa using h1) (by simpa using h2)⟩
        · rintro ⟨h1, h2⟩ i d d' h3 h4
          cases i with
          | zero => exact h1 d d' (by simpa using h3) (by simpa using h4)
          | succ i => exact h2 i d d' (by simpa using h3) (by simpa using h4)
      rw [key]
      cases a with
      | none => cases b <;> simp [TN.noConflict]
      | some a => cases b <;> simp [TN.noConflict]

/-- The incidence graph lists the edges of every node in the order of its legs (no leg is repeated). -/
def TN.LegsInOrder (tn : TN τ) : Prop := ∀ n r, tn.nodes.get? n = some r → tn.adjOfNode n = r.legs

theorem graphShape_iff {tn : TN τ} {n : Nm} {legs : List Nm} (ha : tn.adjOfNode n = legs)
    (hl : ∀ e ∈ legs, e ∈ tn.edges.keys) :
    ∃ sh, tn.graphShape n = some sh ∧ sh.length = legs.length ∧
      ∀ (i d : Nat), sh[i]? = some (some d) ↔
        ∃ e, legs[i]? = some e ∧ (tn.edges.get? e).bind EdgeRec.dim = some d := by
  unfold TN.graphShape
  rw [ha]
  clear ha
  induction legs with
  | nil => exact ⟨[], rfl, rfl, by simp⟩
  | cons e l ih =>
    obtain ⟨sh, h1, h2, h3⟩ := ih fun e he => hl e (by simp [he])
    obtain ⟨r, hr⟩ := Dict.exists_get? (hl e (by simp))
    refine ⟨r.dim :: sh, by rw [List.mapM_cons, h1, hr]; rfl, by simp [h2], fun i d => ?_⟩
    cases i with
    | zero => simp [hr]
    | succ i => simpa using h3 i d

theorem nodeValid_iff [HasShape τ] {tn : TN τ} {n : Nm} {r : NodeRec τ} (ha : tn.adjOfNode n = r.legs)
    (hl : ∀ e ∈ r.legs, e ∈ tn.edges.keys) (ht : r.ten.isSome) :
    ∃ b, tn.nodeValid (n, r) = some b ∧ (b = true ↔ tn.NodeFits r) := by
  obtain ⟨sh, h1, h2, h3⟩ := graphShape_iff ha hl
  obtain ⟨t, ht⟩ := Option.isSome_iff_exists.1 ht
  unfold TN.nodeValid
  simp only [h1, ht]
  cases hs : HasShape.shape t with
  | none =>
    refine ⟨true, rfl, by simp only [true_iff]; intro t' sh' h4 h5; rw [ht] at h4; cases h4; rw [hs] at h5; cases h5⟩
  | some lst =>
    refine ⟨_, rfl, ?_⟩
    rw [Bool.and_eq_true, noConflict_iff, beq_iff_eq]
    constructor
    · rintro ⟨h4, h5⟩ t' sh' h6 h7
      rw [ht] at h6; cases h6; rw [hs] at h7; cases h7
      exact ⟨by omega, fun i e d d' g1 g2 g3 => h5 i d d' g2 ((h3 i d').2 ⟨e, g1, g3⟩)⟩
    · intro h
      obtain ⟨h4, h5⟩ := h t lst ht hs
      refine ⟨by omega, fun i d d' g1 g2 => ?_⟩
      obtain ⟨e, g3, g4⟩ := (h3 i d').1 g2
      exact h5 i e d d' g3 g1 g4

/-- C15: `is_valid` returns (it does not raise), and returns True exactly when every node whose shape is known
has as many dimensions as legs and no definite dimension disagrees with the one of the edge on that leg.

Full statement: for every reachable network.  It fails when a leg is repeated or after `rewire`
(`c15_repeated_leg_violated`, `c15_rewire_violated`), because the check goes through the incidence graph. -/
theorem c15_is_valid_partial [HasShape τ] {tn : TN τ} (hc : tn.Consistent) (ho : tn.LegsInOrder)
    (ht : ∀ n r, tn.nodes.get? n = some r → r.ten.isSome) :
    ∃ b, tn.isValid = some b ∧ (b = true ↔ tn.AllFit) := by
  have key : ∀ l : List (Nm × NodeRec τ), (∀ p ∈ l, p ∈ tn.nodes) →
      ∃ b, tn.isValidLoop l = some b ∧ (b = true ↔ ∀ p ∈ l, tn.NodeFits p.2) := by
    intro l
    induction l with
    | nil => exact fun _ => ⟨true, rfl, by simp⟩
    | cons p l ih =>
      intro hl
      obtain ⟨b, h1, h2⟩ := ih fun p hp => hl p (by simp [hp])
      obtain ⟨n, r⟩ := p
      have hg := Dict.get?_of_mem hc.nodes_nodup (hl (n, r) (by simp))
      obtain ⟨b', h3, h4⟩ := nodeValid_iff (ho n r hg) (hc.legs_exist n r hg) (ht n r hg)
      unfold TN.isValidLoop
      rw [h3]
      cases b' with
      | false => exact ⟨false, rfl, by simp only [List.forall_mem_cons, ← h4]; simp⟩
      | true =>
        refine ⟨b, h1, ?_⟩
        simp only [List.forall_mem_cons, ← h4, h2]; simp
  obtain ⟨b, h1, h2⟩ := key tn.nodes fun _ h => h
  refine ⟨b, h1, h2.trans ⟨fun h n r hr => h (n, r) (Dict.mem_of_get? hr), fun h p hp => h p.1 p.2 ?_⟩⟩
  exact Dict.get?_of_mem hc.nodes_nodup hp

/-! ## The hypotheses of C15 along histories -/

/-- Edits for which the graph keeps listing edges in leg order: no `rewire`, no `merge_edges`, no repeated
leg in a new node. -/
def OrderlyOp [HasShape τ] (tn : TN τ) : Op τ → Prop
  | .rewire _ _ _ => False
  | .mergeEdges _ _ _ => False
  | .addNode none ident (some es) _ _ => ident ∉ tn.nodes.keys ∧ es.Nodup
  | .addNode none ident none _ _ => ident ∉ tn.nodes.keys
  | .addNode (some _) _ (some es) _ _ => es.Nodup
  | .encapsulate _ opn none ident => ident ∉ tn.nodes.keys ∧ opn.Nodup
  | .encapsulate _ opn (some _) _ => opn.Nodup
  | _ => True

/-- `OrderlyOp` along a history. -/
def OrderlyRun [NetTensor τ] : TN τ → List (Op τ) → Prop
  | _, [] => True
  | tn, op :: ops => OrderlyOp tn op ∧ OrderlyRun (tn.step op).1 ops

theorem addAdjs_disjoint {l ps : List (Nm × Nm)} (hp : ps.Nodup) (hd : ∀ p ∈ ps, p ∉ l) :
    TN.addAdjs l ps = l ++ ps := by
  unfold TN.addAdjs
  induction ps generalizing l with
  | nil => simp
  | cons p ps ih =>
    rw [List.foldl_cons]
    have h1 : TN.addAdj l p = l ++ [p] := by unfold TN.addAdj; rw [if_neg (hd p (by simp))]
    rw [h1, ih (List.nodup_cons.1 hp).2, List.append_assoc]; rfl
    intro q hq hc
    rcases List.mem_append.1 hc with hc | hc
    · exact hd q (by simp [hq]) hc
    · rw [List.mem_singleton] at hc; subst hc; exact (List.nodup_cons.1 hp).1 hq

/-- State kept along orderly histories. -/
structure TN.Orderly (tn : TN τ) : Prop where
  cons : tn.Consistent
  order : tn.LegsInOrder
  full : ∀ n r, tn.nodes.get? n = some r → r.ten.isSome

theorem orderly_addNode [HasShape τ] {tn tn' : TN τ} {name : Option Nm} {ident : Nm}
    {edges : Option (List Nm)} {t : τ} {isOpen : Bool} {n : Nm} (h : tn.Orderly)
    (hf : name = none → ident ∉ tn.nodes.keys) (hnd : ∀ es, edges = some es → es.Nodup)
    (hok : tn.addNode name ident edges t isOpen = (tn', .ok n)) : tn'.Orderly := by
  have hcons := h.cons.addNode hf hok
  obtain ⟨hn, hnt, legs, frozen, E', hl, rfl, _, _⟩ := TN.addNode_ok hok
  have hnew : n ∉ tn.nodes.keys := by
    cases name with
    | none => rw [hn]; exact hf rfl
    | some m =>
      rw [hn]
      exact Dict.has_eq_false.1 hnt
  have hlegs : legs.Nodup := by
    unfold TN.newLegs at hl
    cases edges with
    | some es => simp only [Option.some.injEq, Prod.mk.injEq] at hl; rw [← hl.1]; exact hnd es rfl
    | none =>
      cases hs : HasShape.shape t with
      | none => rw [hs] at hl; simp at hl
      | some sh =>
        rw [hs] at hl
        simp only [Option.some.injEq, Prod.mk.injEq] at hl
        rw [← hl.1]
        refine List.Nodup.map (f := fun i : Nat => Nm.int i) (fun a b hab => ?_) List.nodup_range
        simpa using hab
  have hadj : TN.addAdjs tn.adj (legs.map fun e => (n, e)) = tn.adj ++ legs.map fun e => (n, e) := by
    refine addAdjs_disjoint (hlegs.map fun a b hab => by simpa using hab) ?_
    intro p hp hc
    obtain ⟨e, _, rfl⟩ := List.mem_map.1 hp
    obtain ⟨r, hr, _⟩ := (h.cons.adj_iff n e).1 hc
    exact hnew (Dict.mem_keys_of_get? hr)
  refine ⟨hcons, fun m r hr => ?_, fun m r hr => ?_⟩
  · have hr : Dict.get? (Dict.set _ _ _) m = some r := hr
    show List.map Prod.snd (List.filter _ (TN.addAdjs _ _)) = _
    rw [hadj, List.filter_append, List.map_append]
    rw [Dict.get?_set] at hr
    by_cases hm : n = m
    · subst hm
      rw [if_pos rfl] at hr
      cases hr
      have h1 : tn.adj.filter (fun x => x.1 = n) = [] := by
        rw [List.filter_eq_nil_iff]
        rintro ⟨a, e⟩ hp hc
        have : a = n := by simpa using hc
        subst this
        obtain ⟨r, hr, _⟩ := (h.cons.adj_iff a e).1 hp
        exact hnew (Dict.mem_keys_of_get? hr)
      rw [h1, List.filter_eq_self.2]
      · simp [Function.comp_def]
      · intro p hp
        obtain ⟨e, _, rfl⟩ := List.mem_map.1 hp
        simp
    · rw [if_neg hm] at hr
      have h1 : (legs.map fun e => (n, e)).filter (fun x => x.1 = m) = [] := by
        rw [List.filter_eq_nil_iff]
        intro p hp
        obtain ⟨e, _, rfl⟩ := List.mem_map.1 hp
        simpa using hm
      rw [h1, List.map_nil, List.append_nil]
      exact h.order m r hr
  · have hr : Dict.get? (Dict.set _ _ _) m = some r := hr
    rw [Dict.get?_set] at hr
    by_cases hm : n = m
    · rw [if_pos hm] at hr; cases hr; rfl
    · rw [if_neg hm] at hr; exact h.full m r hr

/-- Changing only edges, open edges and the counter. -/
theorem TN.Orderly.frame {tn tn' : TN τ} (h : tn.Orderly) (hc : tn'.Consistent) (hn : tn'.nodes = tn.nodes)
    (ha : tn'.adj = tn.adj) : tn'.Orderly :=
  ⟨hc, fun n r hr => by unfold TN.adjOfNode; rw [ha]; exact h.order n r (hn ▸ hr),
    fun n r hr => h.full n r (hn ▸ hr)⟩

theorem orderly_filter {tn tn' : TN τ} (h : tn.Orderly) (hc : tn'.Consistent) (p : Nm × Nm → Bool)
    (ha : tn'.adj = tn.adj.filter p)
    (hn : ∀ n r, tn'.nodes.get? n = some r → ∃ r0, tn.nodes.get? n = some r0 ∧ r.ten = r0.ten ∧
      r.legs = r0.legs.filter fun e => p (n, e)) : tn'.Orderly := by
  refine ⟨hc, fun n r hr => ?_, fun n r hr => ?_⟩
  · obtain ⟨r0, h0, _, hl⟩ := hn n r hr
    rw [hl, ← h.order n r0 h0]
    unfold TN.adjOfNode
    rw [ha, List.filter_map, List.filter_filter, List.filter_filter]
    congr 1
    refine List.filter_congr fun q _ => ?_
    obtain ⟨a, e⟩ := q
    by_cases hq : a = n
    · subst hq; simp
    · simp [hq]
  · obtain ⟨r0, h0, ht, _⟩ := hn n r hr
    rw [ht]; exact h.full n r0 h0

theorem orderly_fix1 {tn : TN τ} (h : tn.Orderly) (e : Nm) : (tn.fix1 e).Orderly := by
  have hc := h.cons.fix1 e
  revert hc
  unfold TN.fix1
  split
  · next d f hr =>
    simp only
    have hnodes : ∀ n r, Dict.get? (tn.nodes.mapIf (tn.nodeOfEdges [e]) (TN.dropLeg e)) n = some r →
        ∃ r0, tn.nodes.get? n = some r0 ∧ r.ten = r0.ten ∧
          r.legs = r0.legs.filter fun e' => (fun q : Nm × Nm => decide (q.2 ≠ e)) (n, e') := by
      intro n r hr
      rw [Dict.get?_mapIf] at hr
      cases h0 : tn.nodes.get? n with
      | none => rw [h0] at hr; simp at hr
      | some r0 =>
        rw [h0] at hr
        simp only [Option.map_some, Option.some.injEq] at hr
        subst hr
        refine ⟨r0, rfl, ?_⟩
        by_cases hne : tn.nodeOfEdges [e] n = true
        · rw [if_pos hne]; exact ⟨rfl, rfl⟩
        · rw [if_neg hne]
          refine ⟨rfl, (List.filter_eq_self.2 fun e' he' => ?_).symm⟩
          simp only [decide_eq_true_eq]
          rintro rfl
          exact hne (TN.nodeOfEdges_iff.2 ⟨e', by simp, (h.cons.adj_iff n e').2 ⟨r0, h0, he'⟩⟩)
    split
    · exact fun hc => orderly_filter h hc (fun q => q.2 ≠ e) rfl hnodes
    · exact fun hc => orderly_filter h hc (fun q => q.2 ≠ e) rfl hnodes
  · exact fun _ => h

theorem fixEdge_nodes (tn : TN τ) (e : Nm) (vals : List Nat) (cf : Bool) :
    (tn.fixEdge e vals cf).1.nodes = tn.nodes ∧ (tn.fixEdge e vals cf).1.adj = tn.adj := by
  rcases TN.fixEdge_frame tn e vals cf with h | ⟨r, f, _, h⟩ <;> rw [h] <;> exact ⟨rfl, rfl⟩

/-- The hypotheses of `c15_is_valid_partial` are kept by orderly edits. -/
theorem orderly_step [NetTensor τ] {tn tn' : TN τ} {op : Op τ} (h : tn.Orderly) (ho : OrderlyOp tn op)
    (hok : tn.step op = (tn', .ok ())) : tn'.Orderly := by
  have hunit : ∀ {α : Type} {r : Res τ α}, r.unit = (tn', .ok ()) → ∃ x, r = (tn', .ok x) := by
    intro α r hr
    obtain ⟨t, o⟩ := r
    cases o with
    | error e => simp [Res.unit] at hr
    | ok x => simp [Res.unit] at hr; exact ⟨x, by rw [hr]⟩
  have hfresh : FreshOp tn op := by
    cases op with
    | addNode name ident edges t isOpen =>
      cases name with
      | none => cases edges <;> first | exact ho | exact ho.1
      | some _ => trivial
    | encapsulate ns opn name ident =>
      cases name with
      | none => exact ho.1
      | some _ => trivial
    | _ => trivial
  have hcons := c11_step h.cons hfresh hok
  cases op with
  | addNode name ident edges t isOpen =>
    obtain ⟨n, hn⟩ := hunit hok
    refine orderly_addNode h ?_ ?_ hn
    · rintro rfl; cases edges <;> first | exact ho | exact ho.1
    · rintro es rfl; cases name <;> first | exact ho | exact ho.2
  | popNode n =>
    obtain ⟨r, hr⟩ := hunit hok
    unfold TN.popNode at hr
    split at hr
    · simp at hr
    · simp only [Prod.mk.injEq] at hr
      obtain ⟨hr, _⟩ := hr
      subst hr
      refine orderly_filter h hcons (fun q => q.1 ≠ n) rfl fun m r hm => ?_
      have hm : Dict.get? (Dict.del _ _) m = some r := hm
      rw [Dict.get?_del] at hm
      split at hm
      · simp at hm
      · next hmn => exact ⟨r, hm, rfl, (List.filter_eq_self.2 fun e _ => by simpa using hmn).symm⟩
  | removeNode n =>
    obtain ⟨r, hr⟩ := hunit hok
    unfold TN.removeNode TN.popNode at hr
    cases hg : tn.nodes.get? n with
    | none => rw [hg] at hr; simp at hr
    | some r0 =>
      rw [hg] at hr
      simp only [Prod.mk.injEq] at hr
      obtain ⟨hr, _⟩ := hr
      subst hr
      refine orderly_filter h hcons (fun q => q.1 ≠ n) rfl fun m r hm => ?_
      have hm : Dict.get? (Dict.del _ _) m = some r := hm
      rw [Dict.get?_del] at hm
      split at hm
      · simp at hm
      · next hmn => exact ⟨r, hm, rfl, (List.filter_eq_self.2 fun e _ => by simpa using hmn).symm⟩
  | updateNode n t =>
    obtain ⟨r, E', hr, rfl, _, _⟩ := TN.updateNode_ok hok
    refine ⟨hcons, fun m r' hm => ?_, fun m r' hm => ?_⟩
    · have hm : Dict.get? (Dict.set _ _ _) m = some r' := hm
      rw [Dict.get?_set] at hm
      split at hm
      · next he =>
        rw [Option.some.injEq] at hm
        rw [← hm, ← he]
        exact h.order n r hr
      · exact h.order m r' hm
    · have hm : Dict.get? (Dict.set _ _ _) m = some r' := hm
      rw [Dict.get?_set] at hm
      split at hm
      · next he => cases hm; rfl
      · exact h.full m r' hm
  | addEdge name dim =>
    obtain ⟨r, hr⟩ := hunit hok
    obtain ⟨E', c', h1, _⟩ := TN.addEdge_grow tn name dim
    rw [hr] at h1
    have h1 : tn' = _ := h1
    refine h.frame hcons ?_ ?_ <;> rw [h1]
  | openEdge e dim =>
    obtain ⟨E', O', h1, _⟩ := TN.openEdge_frame tn e dim
    rw [show tn.openEdge e dim = _ from hok] at h1
    have h1 : tn' = _ := h1
    refine h.frame hcons ?_ ?_ <;> rw [h1]
  | closeEdge e =>
    have hok : (tn.closeEdge e, Except.ok ()) = (tn', .ok ()) := hok
    simp only [Prod.mk.injEq, and_true] at hok
    subst hok
    exact h.frame hcons rfl rfl
  | fixEdge e vals cf =>
    have h1 := fixEdge_nodes tn e vals cf
    rw [show tn.fixEdge e vals cf = _ from hok] at h1
    exact h.frame hcons h1.1 h1.2
  | fixIndex i v =>
    have hok : tn.fixIndex i v = _ := hok
    unfold TN.fixIndex at hok
    split at hok
    · simp at hok
    · next e _ =>
      have h1 := fixEdge_nodes tn e [v] false
      revert hok h1
      generalize tn.fixEdge e [v] = res
      obtain ⟨t, o⟩ := res
      intro hok h1
      cases o with
      | error er => simp at hok
      | ok u =>
        simp only [Prod.mk.injEq, and_true] at hok
        subst hok
        exact h.frame hcons h1.1 h1.2
  | fix =>
    have hok : (tn.fixAll, Except.ok ()) = (tn', .ok ()) := hok
    simp only [Prod.mk.injEq, and_true] at hok
    rw [← hok]
    unfold TN.fixAll
    generalize tn.edges.keys = ks
    clear * - h
    induction ks generalizing tn with
    | nil => exact h
    | cons e ks ih => exact ih (orderly_fix1 h e)
  | mergeEdges es m d => exact ho.elim
  | rewire n leg dest => exact ho.elim
  | encapsulate ns opn name ident =>
    obtain ⟨n, hn⟩ := hunit hok
    unfold TN.encapsulate at hn
    split at hn
    · simp at hn
    · next stn hs =>
      obtain ⟨_, _, f, E1, _, _, hopn, _⟩ := TN.subtn_ok hs
      rw [hopn] at hn
      have hd : (tn.dropSub ns (tn.closedOfNodes ns)).Orderly := by
        have hclosed : ∀ m e, m ∉ ns → (m, e) ∈ tn.adj → e ∉ tn.closedOfNodes ns := by
          intro m e hm ha hc
          simp only [TN.closedOfNodes, List.mem_filter, Bool.and_eq_true, List.all_eq_true] at hc
          exact hm (List.contains_iff_mem.1 (hc.2.1.2 m (TN.mem_adjOfEdge.2 ha)))
        refine orderly_filter h (h.cons.dropSub ns)
          (fun q => !(ns.contains q.1) && !((tn.closedOfNodes ns).contains q.2)) rfl fun m r hm => ?_
        have hm : Dict.get? (tn.nodes.filterKeys fun n => !(ns.contains n)) m = some r := hm
        rw [Dict.get?_filterKeys] at hm
        split at hm
        · next hmn =>
          refine ⟨r, hm, rfl, (List.filter_eq_self.2 fun e he => ?_).symm⟩
          have hmn' : m ∉ ns := by simpa using hmn
          have := hclosed m e hmn' ((h.cons.adj_iff m e).2 ⟨r, hm, he⟩)
          simp [hmn', this]
        · simp at hm
      refine orderly_addNode hd ?_ ?_ hn
      · rintro rfl hc
        have hc : ident ∈ Dict.keys (tn.nodes.filterKeys fun n => !(ns.contains n)) := hc
        rw [Dict.keys_filterKeys] at hc
        exact ho.1 (List.mem_filter.1 hc).1
      · rintro es hes
        cases hes
        cases name <;> first | exact ho | exact ho.2

theorem orderly_run [NetTensor τ] {tn tn' : TN τ} {ops : List (Op τ)} (h : tn.Orderly)
    (ho : OrderlyRun tn ops) (hrun : tn.run ops = some tn') : tn'.Orderly := by
  induction ops generalizing tn with
  | nil => simp only [TN.run, Option.some.injEq] at hrun; exact hrun ▸ h
  | cons op ops ih =>
    unfold TN.run at hrun
    have hs := fun t (ht : tn.step op = (t, .ok ())) => orderly_step h ho.1 ht
    have ho2 := ho.2
    revert hrun hs ho2
    generalize tn.step op = res
    obtain ⟨t, o⟩ := res
    intro hrun hs ho2
    cases o with
    | error e => simp at hrun
    | ok u => exact ih (hs t rfl) ho2 hrun

/-- C15 after any history without `rewire`, `merge_edges` and repeated legs. -/
theorem c15_is_valid_history_partial [NetTensor τ] {tn : TN τ} {ops : List (Op τ)}
    (ho : OrderlyRun ({} : TN τ) ops) (hrun : TN.run {} ops = some tn) :
    ∃ b, tn.isValid = some b ∧ (b = true ↔ tn.AllFit) := by
  have h : tn.Orderly := orderly_run
    ⟨TN.Consistent.empty, fun n r hr => by simp [Dict.get?] at hr, fun n r hr => by simp [Dict.get?] at hr⟩ ho hrun
  exact c15_is_valid_partial h.cons h.order h.full

instance (tn : TN Shp) (op : Op Shp) : Decidable (OrderlyOp tn op) := by
  unfold OrderlyOp; split <;> infer_instance

instance decOrderly : (tn : TN Shp) → (ops : List (Op Shp)) → Decidable (OrderlyRun tn ops)
  | _, [] => isTrue trivial
  | tn, op :: ops =>
    have : Decidable (OrderlyRun (tn.step op).1 ops) := decOrderly _ _
    inferInstanceAs (Decidable (_ ∧ _))

/-- An orderly history after which `is_valid` answers False: a tensor of higher rank is accepted by
`update_node`. -/
def validExample (sh : List Nat) : List (Op Shp) :=
  [.addNode (some (.int 0)) (.int 0) (some [.str "a", .str "b"]) (shp [2, 3]) true,
   .addNode none (.int 1) (some [.str "b", .str "c"]) (shp [3, 4]) false,
   .updateNode (.int 1) (shp sh),
   .encapsulate [.int 0] [.str "a", .str "b"] none (.int 2)]

example : OrderlyRun {} (validExample [3, 4]) ∧ OrderlyRun {} (validExample [3, 4, 5]) ∧
    (∃ tn, TN.run {} (validExample [3, 4]) = some tn ∧ tn.isValid = some true) ∧
    (∃ tn, TN.run {} (validExample [3, 4, 5]) = some tn ∧ tn.isValid = some false) :=
  ⟨by decide, by decide, ⟨_, rfl, rfl⟩, ⟨_, rfl, rfl⟩⟩

/-- A checkable form of `TN.AllFit` (for the witnesses below). -/
def fitsB (tn : TN Shp) (r : NodeRec Shp) : Bool :=
  match r.ten with
  | some (some sh) => sh.length == r.legs.length &&
      (List.range r.legs.length).all fun i =>
        match r.legs[i]?, sh[i]? with
        | some e, some (some d) =>
          match (tn.edges.get? e).bind EdgeRec.dim with
          | some d' => d == d'
          | none => true
        | _, _ => true
  | _ => true

theorem allFit_of_check {tn : TN Shp} (h : tn.nodes.all (fun p => fitsB tn p.2) = true) : tn.AllFit := by
  intro n r hr t sh ht hs
  have h1 := List.all_eq_true.1 h _ (Dict.mem_of_get? hr)
  have hs : t = some sh := hs
  subst hs
  simp only [fitsB, ht, Bool.and_eq_true, beq_iff_eq, List.all_eq_true, List.mem_range] at h1
  refine ⟨h1.1, fun i e d d' g1 g2 g3 => ?_⟩
  have h2 := h1.2 i (List.getElem?_eq_some_iff.1 g1).1
  simp only [g1, g2, g3, beq_iff_eq] at h2
  exact h2

/-- A node with a repeated leg is reported invalid although its tensor fits. -/
theorem c15_repeated_leg_violated :
    ∃ (ops : List (Op Shp)) (tn : TN Shp), TN.run {} ops = some tn ∧ tn.AllFit ∧ tn.isValid = some false :=
  ⟨[.addNode (some (.int 0)) (.int 0) (some [.str "a", .str "a"]) (shp [2, 2]) false], _, rfl,
    allFit_of_check (by decide), rfl⟩

/-- `rewire` moves a leg to another position of the graph's edge list: a fitting network is reported
invalid. -/
theorem c15_rewire_violated :
    ∃ (ops : List (Op Shp)) (tn : TN Shp), TN.run {} ops = some tn ∧ tn.AllFit ∧ tn.isValid = some false :=
  ⟨[.addNode (some (.int 0)) (.int 0) (some [.str "a", .str "b"]) (shp [2, 3]) false,
    .rewire (.int 0) 0 (some (.str "c"))], _, rfl, allFit_of_check (by decide), rfl⟩

end Verif
