import Verif.Spec.Network
import Verif.Lemmas.TN
import Verif.Model.Ops
/-! # Preservation of structural consistency by the individual edits -/

namespace Verif

variable {τ : Type}

namespace TN

theorem mem_addAdj {l : List (Nm × Nm)} {p q : Nm × Nm} : q ∈ addAdj l p ↔ q ∈ l ∨ q = p := by
  unfold addAdj
  split
  · next h => exact ⟨Or.inl, fun h2 => h2.elim id fun h3 => h3 ▸ h⟩
  · simp

theorem nodup_addAdj {l : List (Nm × Nm)} (h : l.Nodup) (p : Nm × Nm) : (addAdj l p).Nodup := by
  unfold addAdj
  split
  · exact h
  · next hp => exact List.nodup_append.2 ⟨h, by simp, fun a ha b hb he => hp (by
      rw [List.mem_singleton.1 hb] at he; exact he ▸ ha)⟩

theorem mem_addAdjs {l ps : List (Nm × Nm)} {q : Nm × Nm} : q ∈ addAdjs l ps ↔ q ∈ l ∨ q ∈ ps := by
  unfold addAdjs
  induction ps generalizing l with
  | nil => simp
  | cons p ps ih => rw [List.foldl_cons, ih, mem_addAdj, List.mem_cons, or_assoc]

theorem nodup_addAdjs {l : List (Nm × Nm)} (h : l.Nodup) (ps : List (Nm × Nm)) : (addAdjs l ps).Nodup := by
  unfold addAdjs
  induction ps generalizing l with
  | nil => exact h
  | cons p ps ih => exact ih (nodup_addAdj h p)

theorem nodeOfEdges_iff {tn : TN τ} {es : List Nm} {n : Nm} :
    tn.nodeOfEdges es n = true ↔ ∃ e ∈ es, (n, e) ∈ tn.adj := by
  unfold nodeOfEdges
  rw [List.any_eq_true]
  constructor
  · rintro ⟨⟨n', e⟩, h1, h2⟩
    simp only [Bool.and_eq_true, beq_iff_eq, List.contains_iff_mem] at h2
    obtain ⟨h2, rfl⟩ := h2
    exact ⟨e, h2, h1⟩
  · rintro ⟨e, he, h⟩
    exact ⟨(n, e), h, by simp [he]⟩

theorem edgeOfNodes_iff {tn : TN τ} {ns : List Nm} {e : Nm} :
    tn.edgeOfNodes ns e = true ↔ ∃ n ∈ ns, (n, e) ∈ tn.adj := by
  unfold edgeOfNodes
  rw [List.any_eq_true]
  constructor
  · rintro ⟨⟨n', e'⟩, h1, h2⟩
    simp only [Bool.and_eq_true, beq_iff_eq, List.contains_iff_mem] at h2
    obtain ⟨h2, rfl⟩ := h2
    exact ⟨n', h2, h1⟩
  · rintro ⟨n, hn, h⟩
    exact ⟨(n, e), h, by simp [hn]⟩

theorem mem_adjOfEdge {tn : TN τ} {n e : Nm} : n ∈ tn.adjOfEdge e ↔ (n, e) ∈ tn.adj := by
  unfold adjOfEdge
  simp only [List.mem_map, List.mem_filter, decide_eq_true_eq, Prod.exists]
  constructor
  · rintro ⟨a, b, ⟨h, rfl⟩, rfl⟩; exact h
  · intro h; exact ⟨n, e, ⟨h, rfl⟩, rfl⟩

theorem mem_adjOfNode {tn : TN τ} {n e : Nm} : e ∈ tn.adjOfNode n ↔ (n, e) ∈ tn.adj := by
  unfold adjOfNode
  simp only [List.mem_map, List.mem_filter, decide_eq_true_eq, Prod.exists]
  constructor
  · rintro ⟨a, b, ⟨h, rfl⟩, rfl⟩; exact h
  · intro h; exact ⟨n, e, ⟨h, rfl⟩, rfl⟩

/-- `fix_edge` only replaces the record of an existing edge, keeping its dimension. -/
theorem fixEdge_frame (tn : TN τ) (e : Nm) (vals : List Nat) (cf : Bool) :
    (tn.fixEdge e vals cf).1 = tn ∨ ∃ r f, tn.edges.get? e = some r ∧
      (tn.fixEdge e vals cf).1 = { tn with edges := tn.edges.set e { r with fix := some f } } := by
  unfold TN.fixEdge
  split
  · exact Or.inl rfl
  · next r hr =>
    split
    · exact Or.inl rfl
    · split
      · split
        · exact Or.inr ⟨r, _, hr, rfl⟩
        · split
          · split
            · exact Or.inr ⟨r, _, hr, rfl⟩
            · exact Or.inl rfl
          · exact Or.inr ⟨r, _, hr, rfl⟩
      · exact Or.inl rfl

theorem mergeFix_frame (tn : TN τ) (m : Nm) (f : Option (List Nat)) :
    ∃ E', (tn.mergeFix m f).1 = { tn with edges := E' } ∧ E'.keys = tn.edges.keys := by
  unfold mergeFix
  split
  · next f =>
    rcases fixEdge_frame tn m f false with h | ⟨r, f', hr, h⟩
    · exact ⟨tn.edges, h, rfl⟩
    · exact ⟨_, h, by rw [Dict.keys_set, if_pos (Dict.mem_keys_of_get? hr)]⟩
  · exact ⟨_, rfl, rfl⟩

/-- One successful iteration of the merge loop. -/
theorem mergeStep_ok {t t' : TN τ} {m e : Nm} (hok : mergeStep m t e = (t', .ok ())) :
    t'.nodes = t.nodes ∧ t'.openE = t.openE ∧ e ∈ t.edges.keys ∧
    (∀ x, x ∈ t'.edges.keys ↔ x ∈ t.edges.keys ∧ (x ≠ e ∨ e = m)) ∧
    (t.edges.keys.Nodup → t'.edges.keys.Nodup) ∧
    (∀ n x, (n, x) ∈ t'.adj ↔ ((n, x) ∈ t.adj ∧ (x ≠ e ∨ e = m)) ∨ (x = m ∧ (n, e) ∈ t.adj)) ∧
    (t.adj.Nodup → t'.adj.Nodup) := by
  unfold mergeStep at hok
  split at hok
  · simp at hok
  · next r hr =>
    obtain ⟨E', h1, hk⟩ := mergeFix_frame t m r.fix
    revert hok h1
    generalize t.mergeFix m r.fix = res
    obtain ⟨t1, o⟩ := res
    intro hok h1
    have h1 : t1 = { t with edges := E' } := h1
    subst h1
    cases o with
    | error er => simp at hok
    | ok u =>
      simp only at hok
      have hadj : ∀ n x, (n, x) ∈ addAdjs t.adj
          ((({ t with edges := E' } : TN τ).adjOfEdge e).map fun n => (n, m)) ↔
          (n, x) ∈ t.adj ∨ (x = m ∧ (n, e) ∈ t.adj) := by
        intro n x
        rw [mem_addAdjs]
        refine or_congr_right ?_
        simp only [List.mem_map, Prod.mk.injEq, mem_adjOfEdge]
        constructor
        · rintro ⟨n', h1, rfl, rfl⟩; exact ⟨rfl, h1⟩
        · rintro ⟨rfl, h1⟩; exact ⟨n, h1, rfl, rfl⟩
      have hek : e ∈ t.edges.keys := Dict.mem_keys_of_get? hr
      split at hok
      · next hem =>
        simp only [Prod.mk.injEq, and_true] at hok
        subst hok
        refine ⟨rfl, rfl, hek, fun x => ?_, fun h => ?_, fun n x => ?_, fun h => nodup_addAdjs h _⟩
        · show x ∈ E'.keys ↔ _
          rw [hk]; simp [hem]
        · show E'.keys.Nodup; rw [hk]; exact h
        · show (n, x) ∈ addAdjs _ _ ↔ _
          rw [hadj]; simp [hem]
      · next hem =>
        simp only [Prod.mk.injEq, and_true] at hok
        subst hok
        refine ⟨rfl, rfl, hek, fun x => ?_, fun h => ?_, fun n x => ?_,
          fun h => (nodup_addAdjs h _).filter _⟩
        · show x ∈ (Dict.del E' e).keys ↔ _
          rw [Dict.mem_keys_del, hk]; simp [hem]
        · show (Dict.del E' e).keys.Nodup
          exact Dict.nodup_keys_del (hk ▸ h) e
        · show (n, x) ∈ (addAdjs _ _).filter _ ↔ _
          rw [List.mem_filter, hadj]
          simp only [ne_eq, decide_not, Bool.not_eq_true', decide_eq_false_iff_not, hem, or_false]
          constructor
          · rintro ⟨h1 | h1, h2⟩
            · exact Or.inl ⟨h1, h2⟩
            · exact Or.inr h1
          · rintro (⟨h1, h2⟩ | ⟨rfl, h1⟩)
            · exact ⟨Or.inl h1, h2⟩
            · exact ⟨Or.inr ⟨rfl, h1⟩, fun hc => hem hc.symm⟩

/-- The whole merge loop, when it succeeds. -/
theorem mergeLoop_ok {m : Nm} {es : List Nm} {t t' : TN τ} (hok : forLoop (mergeStep m) es t = (t', .ok ())) :
    t'.nodes = t.nodes ∧ t'.openE = t.openE ∧
    (∀ x, x ∈ t'.edges.keys ↔ x ∈ t.edges.keys ∧ (x ∉ es ∨ x = m)) ∧
    (t.edges.keys.Nodup → t'.edges.keys.Nodup) ∧
    (∀ n x, (n, x) ∈ t'.adj ↔
      ((n, x) ∈ t.adj ∧ (x ∉ es ∨ x = m)) ∨ (x = m ∧ ∃ e ∈ es, (n, e) ∈ t.adj)) ∧
    (t.adj.Nodup → t'.adj.Nodup) := by
  induction es generalizing t with
  | nil =>
    simp only [forLoop, Prod.mk.injEq, and_true] at hok
    subst hok
    simp
  | cons e es ih =>
    obtain ⟨t1, h1, h2⟩ := forLoop_cons_ok hok
    obtain ⟨a1, a2, _, a3, a4, a5, a6⟩ := mergeStep_ok h1
    obtain ⟨b1, b2, b3, b4, b5, b6⟩ := ih h2
    refine ⟨b1.trans a1, b2.trans a2, fun x => ?_, fun h => b4 (a4 h), fun n x => ?_, fun h => b6 (a6 h)⟩
    · rw [b3, a3, List.mem_cons]
      by_cases hx : x = m
      · subst hx
        by_cases hy : x = e
        · subst hy; simp
        · simp [hy]
      · by_cases hy : x = e
        · subst hy; simp [hx]
        · simp [hx, hy]
    · rw [b5]
      simp only [a5, List.mem_cons, exists_eq_or_imp]
      by_cases hxm : x = m
      · subst hxm
        simp only [true_and, or_true, and_true]
        constructor
        · rintro ((⟨h, _⟩ | h) | ⟨e', he', ⟨h, _⟩ | ⟨_, h⟩⟩)
          · exact Or.inl h
          · exact Or.inr (Or.inl h)
          · exact Or.inr (Or.inr ⟨e', he', h⟩)
          · exact Or.inr (Or.inl h)
        · rintro (h | h | ⟨e', he', h⟩)
          · exact Or.inl (Or.inl ⟨h, by by_cases hc : x = e <;> simp [hc]⟩)
          · exact Or.inl (Or.inr h)
          · by_cases hc : e' = e
            · exact Or.inl (Or.inr (hc ▸ h))
            · exact Or.inr ⟨e', he', Or.inl ⟨h, Or.inl hc⟩⟩
      · simp only [hxm, false_and, or_false]
        constructor
        · rintro ⟨⟨h, h1⟩, h2⟩
          refine ⟨h, fun hc => ?_⟩
          rcases hc with hc | hc
          · rcases h1 with h1 | h1
            · exact h1 hc
            · exact hxm (hc.trans h1)
          · exact h2 hc
        · rintro ⟨h, h1⟩
          exact ⟨⟨h, Or.inl fun hc => h1 (Or.inl hc)⟩, fun hc => h1 (Or.inr hc)⟩

namespace Consistent

theorem empty : Consistent ({} : TN τ) := by
  constructor <;> simp [Dict.keys]

theorem grow {tn : TN τ} (h : tn.Consistent) {E' : Dict Nm EdgeRec} (g : EdgesGrow tn.edges E') (c : Nat) :
    Consistent { tn with edges := E', idCount := c } where
  nodes_nodup := h.nodes_nodup
  edges_nodup := g.nodup h.edges_nodup
  legs_exist := fun n r hr e he => g.sub (h.legs_exist n r hr e he)
  open_exist := fun e he => g.sub (h.open_exist e he)
  adj_iff := h.adj_iff
  adj_nodup := h.adj_nodup

theorem grow' {tn : TN τ} (h : tn.Consistent) {E' : Dict Nm EdgeRec} (g : EdgesGrow tn.edges E') :
    Consistent { tn with edges := E' } := h.grow g tn.idCount

/-- Replacing a node record by one with the same legs. -/
theorem setNode {tn : TN τ} (h : tn.Consistent) {n : Nm} {r r' : NodeRec τ}
    (hr : tn.nodes.get? n = some r) (hl : r'.legs = r.legs) :
    Consistent { tn with nodes := tn.nodes.set n r' } where
  nodes_nodup := Dict.nodup_keys_set h.nodes_nodup _ _
  edges_nodup := h.edges_nodup
  legs_exist := by
    intro n' s hs e he
    rw [Dict.get?_set] at hs
    by_cases hn : n = n'
    · rw [if_pos hn] at hs; cases hs
      exact h.legs_exist n r hr e (hl ▸ he)
    · rw [if_neg hn] at hs
      exact h.legs_exist n' s hs e he
  open_exist := h.open_exist
  adj_iff := by
    intro n' e
    rw [h.adj_iff]
    simp only [Dict.get?_set]
    by_cases hn : n = n'
    · subst hn
      simp [hr, hl]
    · simp [hn]
  adj_nodup := h.adj_nodup

theorem addEdge {tn : TN τ} (h : tn.Consistent) (name : Option Nm) (dim : Option Nat) :
    Consistent (tn.addEdge name dim).1 := by
  obtain ⟨E', c', h1, g⟩ := addEdge_grow tn name dim
  rw [h1]; exact h.grow g c'

theorem openEdge {tn : TN τ} (h : tn.Consistent) (e : Nm) (dim : Option Nat) :
    Consistent (tn.openEdge e dim).1 := by
  obtain ⟨E', O', h1, g, _, h2⟩ := openEdge_frame tn e dim
  rw [h1]
  have h3 := h.grow' g
  refine { h3 with open_exist := ?_ }
  rcases h2 with rfl | ⟨rfl, he⟩
  · exact h3.open_exist
  · intro e' he'
    rcases List.mem_append.1 he' with h4 | h4
    · exact h3.open_exist e' h4
    · rw [List.mem_singleton.1 h4]; exact he

theorem closeEdge {tn : TN τ} (h : tn.Consistent) (e : Nm) : Consistent (tn.closeEdge e) :=
  { h with open_exist := fun e' he' => h.open_exist e' (List.mem_filter.1 he').1 }

theorem popNode {tn : TN τ} (h : tn.Consistent) (n : Nm) : Consistent (tn.popNode n).1 := by
  unfold TN.popNode
  split
  · exact h
  · refine ⟨Dict.nodup_keys_del h.nodes_nodup n, h.edges_nodup, ?_, h.open_exist, ?_, h.adj_nodup.filter _⟩
    · intro n' r hr e he
      rw [Dict.get?_del] at hr
      split at hr
      · simp at hr
      · exact h.legs_exist n' r hr e he
    · intro n' e
      simp only [List.mem_filter, h.adj_iff, Dict.get?_del, ne_eq, decide_not, Bool.not_eq_true',
        decide_eq_false_iff_not]
      by_cases hn : n' = n
      · simp [hn]
      · simp [hn]

theorem removeNode {tn : TN τ} (h : tn.Consistent) (n : Nm) : Consistent (tn.removeNode n).1 := by
  unfold TN.removeNode
  have hp := h.popNode n
  revert hp
  unfold TN.popNode
  split
  · exact id
  · next r hr =>
    intro hp
    refine { hp with open_exist := ?_ }
    intro e he
    rcases List.mem_append.1 he with h1 | h1
    · exact h.open_exist e h1
    · exact h.legs_exist n r hr e h1

theorem updateNode [HasShape τ] {tn : TN τ} (h : tn.Consistent) (n : Nm) (t : τ) :
    Consistent (tn.updateNode n t).1 := by
  rcases updateNode_frame tn n t with ⟨h1, _⟩ | ⟨r, E', hr, h1, hle⟩
  · rw [h1]; exact h
  · rw [h1]
    exact (h.setNode hr (r' := { r with ten := some t }) rfl).grow' hle.grow

theorem openAll {tn : TN τ} (h : tn.Consistent) (es : List Nm) : Consistent (tn.openAll es).1 :=
  forLoop_inv (P := Consistent) (fun _ e hs => hs.openEdge e none) es tn h

/-- A successful `add_node` under an unused name. -/
theorem addNode [HasShape τ] {tn tn' : TN τ} (h : tn.Consistent) {name : Option Nm} {ident : Nm}
    {edges : Option (List Nm)} {t : τ} {isOpen : Bool} {n : Nm}
    (hfresh : name = none → ident ∉ tn.nodes.keys)
    (hok : tn.addNode name ident edges t isOpen = (tn', .ok n)) : Consistent tn' := by
  unfold TN.addNode at hok
  split at hok
  · simp at hok
  · next hnt =>
    have hn : tn.nodes.get? (name.getD ident) = none := by
      rw [Dict.get?_eq_none]
      cases name with
      | none => exact hfresh rfl
      | some n0 => exact fun hc => hnt (Dict.has_iff.2 hc)
    generalize hnm : name.getD ident = nm at hok hn
    simp only at hok
    split at hok
    · simp at hok
    · next es frozen hes =>
      generalize hsh : HasShape.shape t = shape at hok
      obtain ⟨E1, h1, g1⟩ := addNodeEdges_grow (tn.putNode nm es frozen) shape 0 es
      have hall : ∀ t2, (tn.putNode nm es frozen).addNodeEdges shape 0 es = (t2, .ok ()) → _ :=
        fun t2 h => addNodeEdges_ok h
      revert hok h1 hall
      generalize (tn.putNode nm es frozen).addNodeEdges shape 0 es = res
      obtain ⟨t2, o⟩ := res
      intro hok h1 hall
      cases o with
      | error er => simp at hok
      | ok u =>
        have h1 : t2 = { tn.putNode nm es frozen with edges := E1 } := h1
        have hall := hall t2 rfl
        subst h1
        have hc : Consistent ({ tn with
            nodes := tn.nodes.set nm
              { legs := es, ten := (tn.nodes.get? nm).bind NodeRec.ten, frozen := frozen },
            edges := E1, adj := addAdjs tn.adj (es.map fun e => (nm, e)) } : TN τ) := by
          refine ⟨Dict.nodup_keys_set h.nodes_nodup _ _, g1.nodup h.edges_nodup, ?_, ?_, ?_,
            nodup_addAdjs h.adj_nodup _⟩
          · intro n' r hr e he
            rw [Dict.get?_set] at hr
            by_cases hnn : nm = n'
            · rw [if_pos hnn] at hr; cases hr
              obtain ⟨j, hj⟩ := List.mem_iff_getElem?.1 he
              obtain ⟨dim, _, r', hr', _⟩ := hall j e hj
              exact Dict.mem_keys_of_get? hr'
            · rw [if_neg hnn] at hr
              exact g1.sub (h.legs_exist n' r hr e he)
          · exact fun e he => g1.sub (h.open_exist e he)
          · intro n' e
            simp only [mem_addAdjs, h.adj_iff, Dict.get?_set, List.mem_map, Prod.mk.injEq]
            by_cases hnn : nm = n'
            · subst hnn
              simp [hn]
            · simp [hnn]
        simp only at hok
        have hc4 := hc.updateNode nm t
        revert hok hc4
        simp only [putNode]
        generalize TN.updateNode _ nm t = res4
        obtain ⟨t4, o4⟩ := res4
        intro hok hc4
        cases o4 with
        | error er => simp at hok
        | ok u =>
          simp only at hok hc4
          split at hok
          · have hc5 := hc4.openAll es
            revert hok hc5
            generalize t4.openAll es = res5
            obtain ⟨t5, o5⟩ := res5
            intro hok hc5
            cases o5 with
            | error er => simp at hok
            | ok u => simp only [Prod.mk.injEq] at hok; rw [← hok.1]; exact hc5
          · simp only [Prod.mk.injEq] at hok; rw [← hok.1]; exact hc4

/-- Replacing the record of an existing edge. -/
theorem setEdge {tn : TN τ} (h : tn.Consistent) {e : Nm} (he : e ∈ tn.edges.keys) (r : EdgeRec) :
    Consistent { tn with edges := tn.edges.set e r } := by
  have hk : (tn.edges.set e r).keys = tn.edges.keys := by rw [Dict.keys_set, if_pos he]
  exact { h with
    edges_nodup := by show (tn.edges.set e r).keys.Nodup; rw [hk]; exact h.edges_nodup
    legs_exist := fun n s hs e' he' => by
      show e' ∈ (tn.edges.set e r).keys; rw [hk]; exact h.legs_exist n s hs e' he'
    open_exist := fun e' he' => by
      show e' ∈ (tn.edges.set e r).keys; rw [hk]; exact h.open_exist e' he' }

theorem fixEdge {tn : TN τ} (h : tn.Consistent) (e : Nm) (vals : List Nat) (cf : Bool) :
    Consistent (tn.fixEdge e vals cf).1 := by
  unfold TN.fixEdge
  split
  · exact h
  · next r hr =>
    have he := Dict.mem_keys_of_get? hr
    split
    · exact h
    · split
      · split
        · exact h.setEdge he _
        · split
          · split
            · exact h.setEdge he _
            · exact h
          · exact h.setEdge he _
      · exact h

theorem fixIndex {tn : TN τ} (h : tn.Consistent) (i v : Nat) : Consistent (tn.fixIndex i v).1 := by
  unfold TN.fixIndex
  split
  · exact h
  · next e he =>
    have hc := h.fixEdge e [v] false
    revert hc
    generalize tn.fixEdge e [v] = res
    obtain ⟨t1, o⟩ := res
    intro hc
    cases o with
    | error er => exact hc
    | ok u => exact { hc with open_exist := fun e' he' => hc.open_exist e' (List.mem_of_mem_eraseIdx he') }

theorem fix1 {tn : TN τ} (h : tn.Consistent) (e : Nm) : Consistent (tn.fix1 e) := by
  unfold TN.fix1
  split
  · next d f hr =>
    simp only
    have hlegs : ∀ n r, (tn.nodes.mapIf (tn.nodeOfEdges [e]) (dropLeg e)).get? n = some r → ∃ r0, tn.nodes.get? n = some r0 ∧ r.legs = r0.legs.filter (· ≠ e) := by
      intro n r hr
      rw [Dict.get?_mapIf] at hr
      cases h0 : tn.nodes.get? n with
      | none => rw [h0] at hr; simp at hr
      | some r0 =>
        rw [h0] at hr
        simp only [Option.map_some, Option.some.injEq] at hr
        refine ⟨r0, rfl, ?_⟩
        subst hr
        split
        · rfl
        · next hne =>
          have : e ∉ r0.legs := fun hm => hne (nodeOfEdges_iff.2 ⟨e, by simp, (h.adj_iff n e).2 ⟨r0, h0, hm⟩⟩)
          rw [List.filter_eq_self.2]
          intro a ha
          simp only [ne_eq, decide_not, Bool.not_eq_true', decide_eq_false_iff_not]
          rintro rfl; exact this ha
    have hadj : ∀ n e', (n, e') ∈ tn.adj.filter (·.2 ≠ e) ↔ ∃ r, (tn.nodes.mapIf (tn.nodeOfEdges [e]) (dropLeg e)).get? n = some r ∧ e' ∈ r.legs := by
      intro n e'
      simp only [List.mem_filter, h.adj_iff, ne_eq, decide_not, Bool.not_eq_true', decide_eq_false_iff_not]
      constructor
      · rintro ⟨⟨r0, h0, hm⟩, hne⟩
        have : ∃ r, (tn.nodes.mapIf (tn.nodeOfEdges [e]) (dropLeg e)).get? n = some r := by
          rw [Dict.get?_mapIf, h0]; exact ⟨_, rfl⟩
        obtain ⟨r, hr⟩ := this
        refine ⟨r, hr, ?_⟩
        obtain ⟨r0', h0', hl⟩ := hlegs n r hr
        rw [h0] at h0'; cases h0'
        rw [hl]
        simp [hm, hne]
      · rintro ⟨r, hr, hm⟩
        obtain ⟨r0, h0, hl⟩ := hlegs n r hr
        rw [hl] at hm
        simp only [ne_eq, decide_not, List.mem_filter, Bool.not_eq_true', decide_eq_false_iff_not] at hm
        exact ⟨⟨r0, h0, hm.1⟩, hm.2⟩
    split
    · refine ⟨?_, h.edges_nodup, ?_, h.open_exist, hadj, h.adj_nodup.filter _⟩
      · show (Dict.keys (Dict.mapIf _ _ _)).Nodup; rw [Dict.keys_mapIf]; exact h.nodes_nodup
      · intro n r hr e' he'
        obtain ⟨r0, h0, hl⟩ := hlegs n r hr
        rw [hl] at he'
        exact h.legs_exist n r0 h0 e' (List.mem_filter.1 he').1
    · next hno =>
      refine ⟨?_, Dict.nodup_keys_del h.edges_nodup e, ?_, ?_, hadj, h.adj_nodup.filter _⟩
      · show (Dict.keys (Dict.mapIf _ _ _)).Nodup; rw [Dict.keys_mapIf]; exact h.nodes_nodup
      · intro n r hr e' he'
        obtain ⟨r0, h0, hl⟩ := hlegs n r hr
        rw [hl] at he'
        obtain ⟨h1, h2⟩ := List.mem_filter.1 he'
        exact Dict.mem_keys_del.2 ⟨h.legs_exist n r0 h0 e' h1, by simpa using h2⟩
      · intro e' he'
        exact Dict.mem_keys_del.2 ⟨h.open_exist e' he', fun hc => hno (hc ▸ he')⟩
  · exact h

theorem fixAll {tn : TN τ} (h : tn.Consistent) : Consistent tn.fixAll := by
  unfold TN.fixAll
  generalize tn.edges.keys = ks
  induction ks generalizing tn with
  | nil => exact h
  | cons k ks ih => exact ih (h.fix1 k)

theorem updateDimension {tn : TN τ} (h : tn.Consistent) (dic : Dict Nm (Option Nat)) :
    Consistent (tn.updateDimension dic).1 := by
  obtain ⟨E', h1, h2⟩ := updateDimension_frame tn dic
  rw [h1]; exact h.grow' h2.grow

theorem mergeEdges {tn tn' : TN τ} (h : tn.Consistent) {es : List Nm} {mt dflt : Option Nm} {m : Nm}
    (hok : tn.mergeEdges es mt dflt = (tn', .ok m)) : Consistent tn' := by
  unfold TN.mergeEdges at hok
  split at hok
  · simp at hok
  · next dim hdim =>
    split at hok
    · simp at hok
    · next m0 hm0 =>
      simp only at hok
      have hc1 : Consistent (if mt.isSome && !tn.edges.has m0 then (tn.addEdge (some m0) none).1 else tn) := by
        split
        · exact h.addEdge _ _
        · exact h
      revert hok hc1
      generalize (if mt.isSome && !tn.edges.has m0 then (tn.addEdge (some m0) none).1 else tn) = t1
      intro hok hc1
      have hc2 := hc1.updateDimension [(m0, dim)]
      have hupd : ∀ t2, t1.updateDimension [(m0, dim)] = (t2, .ok ()) → m0 ∈ t2.edges.keys := by
        intro t2 h2
        obtain ⟨r, hr, _⟩ := updateDimension_ok h2 (m0, dim) (by simp)
        exact Dict.mem_keys_of_get? hr
      revert hok hc2 hupd
      generalize t1.updateDimension [(m0, dim)] = res
      obtain ⟨t2, o⟩ := res
      intro hok hc2 hupd
      cases o with
      | error er => simp at hok
      | ok u =>
        have hmk := hupd t2 rfl
        have hc2 : Consistent t2 := hc2
        simp only at hok
        have hloop : ∀ t3, forLoop (mergeStep m0) es t2 = (t3, .ok ()) → _ := fun t3 h => mergeLoop_ok h
        revert hok hloop
        generalize forLoop (mergeStep m0) es t2 = res3
        obtain ⟨t3, o3⟩ := res3
        intro hok hloop
        cases o3 with
        | error er => simp at hok
        | ok u =>
          obtain ⟨b1, b2, b3, b4, b5, b6⟩ := hloop t3 rfl
          simp only at hok
          split at hok
          · next hall =>
            simp only [Prod.mk.injEq] at hok
            rw [← hok.1]
            have hnode : ∀ n, (t3.nodes.mapIf (t2.nodeOfEdges es) (renameLegs es m0)).get? n =
                (t2.nodes.get? n).map fun r =>
                  if t2.nodeOfEdges es n then renameLegs es m0 r else r := by
              intro n; rw [Dict.get?_mapIf, b1]
            have hlegs : ∀ n r0, t2.nodes.get? n = some r0 →
                (if t2.nodeOfEdges es n then renameLegs es m0 r0 else r0).legs =
                  r0.legs.map fun i => if i ∈ es then m0 else i := by
              intro n r0 h0
              split
              · rfl
              · next hno =>
                rw [List.map_congr_left (g := id), List.map_id]
                intro i hi
                have : i ∉ es := fun hc => hno (nodeOfEdges_iff.2 ⟨i, hc, (hc2.adj_iff n i).2 ⟨r0, h0, hi⟩⟩)
                simp [this]
            refine ⟨?_, b4 hc2.edges_nodup, ?_, ?_, ?_, b6 hc2.adj_nodup⟩
            · show (Dict.keys (Dict.mapIf _ _ _)).Nodup
              rw [Dict.keys_mapIf, b1]; exact hc2.nodes_nodup
            · intro n r hr e he
              have hr : (t3.nodes.mapIf (t2.nodeOfEdges es) (renameLegs es m0)).get? n = some r := hr
              rw [hnode] at hr
              cases h0 : t2.nodes.get? n with
              | none => rw [h0] at hr; simp at hr
              | some r0 =>
                rw [h0] at hr
                simp only [Option.map_some, Option.some.injEq] at hr
                rw [← hr, hlegs n r0 h0, List.mem_map] at he
                obtain ⟨i, hi, hie⟩ := he
                show e ∈ t3.edges.keys
                rw [b3, ← hie]
                split
                · exact ⟨hmk, Or.inr rfl⟩
                · next hies => exact ⟨hc2.legs_exist n r0 h0 i hi, Or.inl hies⟩
            · intro e he
              exact Dict.has_iff.1 (List.all_eq_true.1 hall e he)
            · intro n e
              show (n, e) ∈ t3.adj ↔ ∃ r, (t3.nodes.mapIf (t2.nodeOfEdges es) (renameLegs es m0)).get? n = some r ∧ _
              rw [b5, hnode]
              cases h0 : t2.nodes.get? n with
              | none =>
                simp only [hc2.adj_iff, h0]
                simp
              | some r0 =>
                simp only [hc2.adj_iff, h0, Option.map_some, Option.some.injEq, exists_eq_left', hlegs n r0 h0,
                  List.mem_map]
                constructor
                · rintro (⟨h1, h2 | h2⟩ | ⟨rfl, e', he', h1⟩)
                  · exact ⟨e, h1, if_neg h2⟩
                  · by_cases hes : e ∈ es
                    · exact ⟨e, h1, by rw [if_pos hes, h2]⟩
                    · exact ⟨e, h1, if_neg hes⟩
                  · exact ⟨e', h1, if_pos he'⟩
                · rintro ⟨i, hi, rfl⟩
                  by_cases hies : i ∈ es
                  · rw [if_pos hies]
                    exact Or.inr ⟨rfl, i, hies, hi⟩
                  · rw [if_neg hies]
                    exact Or.inl ⟨hi, Or.inl hies⟩
          · simp at hok

theorem rewireTarget {tn tn' : TN τ} {dest : Option Nm} {dim : Option Nat} {m : Nm}
    (h : tn.Consistent) (hok : tn.rewireTarget dest dim = (tn', .ok m)) :
    Consistent tn' ∧ tn'.nodes = tn.nodes ∧ m ∈ tn'.edges.keys := by
  have hadd : ∀ name, tn.addEdge name dim = (tn', .ok m) →
      Consistent tn' ∧ tn'.nodes = tn.nodes ∧ m ∈ tn'.edges.keys := by
    intro name hok
    have h1 := h.addEdge name dim
    obtain ⟨E', c', h2, _⟩ := addEdge_grow tn name dim
    obtain ⟨_, r, hr, _⟩ := addEdge_ok hok
    rw [hok] at h1 h2
    refine ⟨h1, ?_, Dict.mem_keys_of_get? hr⟩
    have h2 : tn' = _ := h2
    rw [h2]
  unfold TN.rewireTarget at hok
  cases dest with
  | none => exact hadd none hok
  | some m0 =>
    simp only at hok
    split at hok
    · next hh =>
      simp only [Prod.mk.injEq, Except.ok.injEq] at hok
      obtain ⟨rfl, rfl⟩ := hok
      exact ⟨h, rfl, Dict.has_iff.1 hh⟩
    · exact hadd _ hok

theorem rewire [HasShape τ] {tn tn' : TN τ} (h : tn.Consistent) {n : Nm} {leg : Nat} {dest : Option Nm}
    (hok : tn.rewire n leg dest = (tn', .ok ())) : Consistent tn' := by
  unfold TN.rewire at hok
  split at hok
  · simp at hok
  · next r hr =>
    split at hok
    · simp at hok
    · next t ht =>
      split at hok
      · next dim e hdim hleg =>
        split at hok
        · simp at hok
        · next t1 m hm =>
          obtain ⟨hc1, hnodes, hmk⟩ := h.rewireTarget hm
          split at hok
          · simp at hok
          · simp only at hok
            have hr1 : t1.nodes.get? n = some r := by rw [hnodes, hr]
            have he : e ∈ r.legs := List.mem_of_getElem? hleg
            have hlegset : ∀ x, x ∈ r.legs.set leg m → x = m ∨ x ∈ r.legs := by
              intro x hx
              rcases List.mem_or_eq_of_mem_set hx with h1 | h1
              · exact Or.inr h1
              · exact Or.inl h1
            have hlt : leg < r.legs.length := (List.getElem?_eq_some_iff.1 hleg).1
            have hmset : m ∈ r.legs.set leg m := by
              rw [List.mem_iff_getElem?]; exact ⟨leg, by rw [List.getElem?_set_self hlt]⟩
            have hother : ∀ x ∈ r.legs, x ≠ e → x ∈ r.legs.set leg m := by
              intro x hx hne
              obtain ⟨j, hj⟩ := List.mem_iff_getElem?.1 hx
              rw [List.mem_iff_getElem?]
              refine ⟨j, ?_⟩
              rw [List.getElem?_set_ne, hj]
              rintro rfl
              rw [hleg] at hj; exact hne (Option.some.inj hj).symm
            have hexist : ∀ n' r', Dict.get? (t1.nodes.set n { r with legs := r.legs.set leg m }) n' = some r' →
                ∀ e' ∈ r'.legs, e' ∈ t1.edges.keys := by
              intro n' r' hr' e' he'
              rw [Dict.get?_set] at hr'
              by_cases hn : n = n'
              · rw [if_pos hn] at hr'; cases hr'
                rcases hlegset e' he' with rfl | h2
                · exact hmk
                · exact hc1.legs_exist n r hr1 e' h2
              · rw [if_neg hn] at hr'
                exact hc1.legs_exist n' r' hr' e' he'
            split at hok
            · next hemem =>
              simp only [Prod.mk.injEq, and_true] at hok
              subst hok
              refine ⟨Dict.nodup_keys_set hc1.nodes_nodup _ _, hc1.edges_nodup, hexist, hc1.open_exist, ?_,
                nodup_addAdj hc1.adj_nodup _⟩
              intro n' e'
              simp only [mem_addAdj, hc1.adj_iff, Dict.get?_set, Prod.mk.injEq]
              by_cases hn : n = n'
              · subst hn
                simp only [hr1, if_true, Option.some.injEq, exists_eq_left', true_and]
                constructor
                · rintro (h1 | rfl)
                  · by_cases hee : e' = e
                    · exact hee ▸ hemem
                    · exact hother e' h1 hee
                  · exact hmset
                · intro h1
                  rcases hlegset e' h1 with h2 | h2
                  · exact Or.inr h2
                  · exact Or.inl h2
              · have hn' : ¬ n' = n := fun hc => hn hc.symm
                simp [hn, hn']
            · next hemem =>
              split at hok
              · simp only [Prod.mk.injEq, and_true] at hok
                subst hok
                refine ⟨Dict.nodup_keys_set hc1.nodes_nodup _ _, hc1.edges_nodup, hexist, hc1.open_exist, ?_,
                  (nodup_addAdj hc1.adj_nodup _).filter _⟩
                intro n' e'
                simp only [List.mem_filter, mem_addAdj, hc1.adj_iff, Dict.get?_set, Prod.mk.injEq, ne_eq,
                  decide_not, Bool.not_eq_true', decide_eq_false_iff_not]
                by_cases hn : n = n'
                · subst hn
                  simp only [hr1, if_true, Option.some.injEq, exists_eq_left', true_and]
                  constructor
                  · rintro ⟨h1 | rfl, hee⟩
                    · exact hother e' h1 hee
                    · exact hmset
                  · intro h1
                    have hee : e' ≠ e := fun hc => hemem (hc ▸ h1)
                    rcases hlegset e' h1 with h2 | h2
                    · exact ⟨Or.inr h2, hee⟩
                    · exact ⟨Or.inl h2, hee⟩
                · have hn' : ¬ n' = n := fun hc => hn hc.symm
                  simp [hn, hn']
              · simp at hok
      · simp at hok

theorem dropSub {tn : TN τ} (h : tn.Consistent) (ns : List Nm) :
    Consistent (tn.dropSub ns (tn.closedOfNodes ns)) := by
  have hnode : ∀ n, Dict.get? (tn.nodes.filterKeys fun n => !(ns.contains n)) n =
      if n ∈ ns then none else tn.nodes.get? n := by
    intro n
    rw [Dict.get?_filterKeys]
    by_cases hn : n ∈ ns <;> simp [hn]
  have hclosed : ∀ e, e ∈ tn.closedOfNodes ns → e ∉ tn.openE ∧ ∀ n, (n, e) ∈ tn.adj → n ∈ ns := by
    intro e he
    simp only [closedOfNodes, List.mem_filter, Bool.and_eq_true, List.all_eq_true, List.contains_iff_mem,
      Bool.not_eq_true', mem_adjOfEdge] at he
    refine ⟨?_, fun n hn => he.2.1.2 n hn⟩
    simpa using he.2.2
  have hkeys : Dict.keys (tn.edges.filterKeys fun e => !((tn.closedOfNodes ns).contains e)) =
      tn.edges.keys.filter fun e => !((tn.closedOfNodes ns).contains e) :=
    Dict.keys_filterKeys _ _
  refine ⟨?_, ?_, ?_, ?_, ?_, h.adj_nodup.filter _⟩
  · show (Dict.keys (tn.nodes.filterKeys fun n => !(ns.contains n))).Nodup
    rw [Dict.keys_filterKeys]
    exact h.nodes_nodup.filter _
  · show (Dict.keys _).Nodup
    unfold TN.dropSub
    rw [hkeys]; exact h.edges_nodup.filter _
  · intro n r hr e he
    have hr : Dict.get? (tn.nodes.filterKeys fun n => !(ns.contains n)) n = some r := hr
    rw [hnode] at hr
    split at hr
    · simp at hr
    · next hn =>
      show e ∈ Dict.keys (tn.edges.filterKeys fun e => !((tn.closedOfNodes ns).contains e))
      rw [hkeys]
      simp only [List.mem_filter, Bool.not_eq_true', List.contains_eq_mem, decide_eq_false_iff_not]
      exact ⟨h.legs_exist n r hr e he, fun hc => hn ((hclosed e hc).2 n ((h.adj_iff n e).2 ⟨r, hr, he⟩))⟩
  · intro e he
    show e ∈ Dict.keys (tn.edges.filterKeys fun e => !((tn.closedOfNodes ns).contains e))
    rw [hkeys]
    simp only [List.mem_filter, Bool.not_eq_true', List.contains_eq_mem, decide_eq_false_iff_not]
    exact ⟨h.open_exist e he, fun hc => (hclosed e hc).1 he⟩
  · intro n e
    show (n, e) ∈ tn.adj.filter _ ↔ ∃ r, Dict.get? (tn.nodes.filterKeys fun n => !(ns.contains n)) n = some r ∧ _
    rw [hnode]
    simp only [List.mem_filter, Bool.and_eq_true, Bool.not_eq_true', List.contains_eq_mem,
      decide_eq_false_iff_not]
    constructor
    · rintro ⟨h1, h2, _⟩
      rw [if_neg h2]
      exact (h.adj_iff n e).1 h1
    · rintro ⟨r, hr, he⟩
      split at hr
      · simp at hr
      · next hn =>
        have hadj := (h.adj_iff n e).2 ⟨r, hr, he⟩
        exact ⟨hadj, hn, fun hc => hn ((hclosed e hc).2 n hadj)⟩

theorem encapsulate [NetTensor τ] {tn tn' : TN τ} (h : tn.Consistent) {ns opn : List Nm} {name : Option Nm}
    {ident n : Nm} (hfresh : name = none → ident ∉ tn.nodes.keys)
    (hok : tn.encapsulate ns opn name ident = (tn', .ok n)) : Consistent tn' := by
  unfold TN.encapsulate at hok
  split at hok
  · simp at hok
  · refine (h.dropSub ns).addNode (fun hn hc => hfresh hn ?_) hok
    have hc : ident ∈ Dict.keys (tn.nodes.filterKeys fun n => !(ns.contains n)) := hc
    rw [Dict.keys_filterKeys] at hc
    exact (List.mem_filter.1 hc).1

end Consistent
end TN
end Verif
