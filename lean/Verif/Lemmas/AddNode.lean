import Verif.Lemmas.TN
/-! # Exact effect of a successful `add_node` -/

namespace Verif

theorem Dict.set_set {K V : Type} [DecidableEq K] (d : Dict K V) (k : K) (a b : V) :
    (d.set k a).set k b = d.set k b := by
  induction d with
  | nil => simp [Dict.set]
  | cons p d ih =>
    obtain ⟨k', v⟩ := p
    by_cases h : k' = k
    · simp [Dict.set, h]
    · simp [Dict.set, h, ih]

/-- `EdgesExt E es E'`: the edges of `E` are kept (only wildcard dimensions may be replaced), exactly the
missing ones among `es` are added, without fix. -/
structure EdgesExt (E : Dict Nm EdgeRec) (es : List Nm) (E' : Dict Nm EdgeRec) : Prop where
  grow : EdgesGrow E E'
  keys : ∀ e, e ∈ E'.keys ↔ e ∈ E.keys ∨ e ∈ es
  nofix : ∀ e r, e ∉ E.keys → E'.get? e = some r → r.fix = none

theorem EdgesLe.ext {E E' : Dict Nm EdgeRec} (h : EdgesLe E E') : EdgesExt E [] E' where
  grow := h.grow
  keys := fun e => by rw [h.keys]; simp
  nofix := fun e r he hr => absurd (h.keys ▸ Dict.mem_keys_of_get? hr) he

theorem EdgesExt.trans {E E' E'' : Dict Nm EdgeRec} {es es' : List Nm} (h : EdgesExt E es E')
    (h' : EdgesExt E' es' E'') : EdgesExt E (es ++ es') E'' where
  grow := h.grow.trans h'.grow
  keys := fun e => by rw [h'.keys, h.keys, List.mem_append, or_assoc]
  nofix := fun e r he hr => by
    by_cases he' : e ∈ E'.keys
    · obtain ⟨r', hr'⟩ := Dict.exists_get? he'
      obtain ⟨r'', hr'', hf, _⟩ := h'.grow.ent e r' hr'
      rw [hr] at hr''
      cases hr''
      rw [hf]
      exact h.nofix e r' he hr'
    · exact h'.nofix e r he' hr

theorem EdgesExt.of_mem {E E' : Dict Nm EdgeRec} {es es' : List Nm} (h : EdgesExt E es E')
    (hm : ∀ e, e ∈ es ↔ e ∈ es') : EdgesExt E es' E' :=
  { h with keys := fun e => by rw [h.keys, hm] }

theorem EdgesExt.set_new {E : Dict Nm EdgeRec} {e : Nm} (he : e ∉ E.keys) (dim : Option Nat) :
    EdgesExt E [e] (E.set e { dim := dim }) where
  grow := EdgesGrow.set_new he _
  keys := fun e' => by rw [Dict.mem_keys_set]; simp [or_comm]
  nofix := fun e' r he' hr => by
    rw [Dict.get?_set] at hr
    by_cases h : e = e'
    · rw [if_pos h] at hr; cases hr; rfl
    · rw [if_neg h] at hr; exact absurd (Dict.mem_keys_of_get? hr) he'

namespace TN

variable {τ : Type}

theorem addEdge_some_ext (tn : TN τ) (e : Nm) (dim : Option Nat) :
    ∃ E', (tn.addEdge (some e) dim).1 = { tn with edges := E' } ∧ EdgesExt tn.edges [e] E' := by
  obtain ⟨E', h1, h2⟩ := addEdgeNamed_frame tn e dim
  refine ⟨E', h1, ?_⟩
  rcases h2 with ⟨h2, he⟩ | ⟨he, rfl, _⟩
  · have h3 := h2.ext
    refine ⟨h3.grow, fun e' => ?_, h3.nofix⟩
    rw [h3.keys]
    simp only [List.not_mem_nil, or_false, List.mem_singleton]
    exact ⟨Or.inl, fun h => h.elim id fun h => h ▸ he⟩
  · exact EdgesExt.set_new he dim

theorem addNodeEdges_ext {tn tn' : TN τ} {shape : Option (List (Option Nat))} {i : Nat} {es : List Nm}
    (h : tn.addNodeEdges shape i es = (tn', .ok ())) :
    ∃ E', tn' = { tn with edges := E' } ∧ EdgesExt tn.edges es E' := by
  induction es generalizing tn i with
  | nil =>
    simp only [addNodeEdges, Prod.mk.injEq, and_true] at h
    exact ⟨tn.edges, h.symm, (EdgesLe.refl _).ext⟩
  | cons e es ih =>
    unfold addNodeEdges at h
    split at h
    · simp at h
    · next dim hdim =>
      obtain ⟨E1, h1, g1⟩ := addEdge_some_ext tn e dim
      revert h h1
      generalize tn.addEdge (some e) dim = res
      obtain ⟨t1, o⟩ := res
      intro h h1
      have h1 : t1 = { tn with edges := E1 } := h1
      subst h1
      cases o with
      | error er => simp at h
      | ok u =>
        obtain ⟨E', h2, g2⟩ := ih h
        exact ⟨E', h2, g1.trans g2⟩

theorem openEdge_of_mem {tn : TN τ} {e : Nm} (he : e ∈ tn.edges.keys) (dim : Option Nat) :
    tn.openEdge e dim = ({ tn with openE := tn.openE ++ [e] }, .ok ()) := by
  unfold openEdge
  rw [if_pos (Dict.has_iff.2 he)]

theorem openAll_of_mem {tn : TN τ} {es : List Nm} (he : ∀ e ∈ es, e ∈ tn.edges.keys) :
    tn.openAll es = ({ tn with openE := tn.openE ++ es }, .ok ()) := by
  unfold openAll
  induction es generalizing tn with
  | nil => simp [forLoop]
  | cons e es ih =>
    unfold forLoop
    rw [openEdge_of_mem (he e (by simp))]
    have h := ih (tn := { tn with openE := tn.openE ++ [e] }) fun e' h' => he e' (by simp [h'])
    have h : forLoop (fun t e => t.openEdge e none) es { tn with openE := tn.openE ++ [e] } = _ := h
    simp only [h, List.append_assoc, List.singleton_append]

/-- A successful `update_node`. -/
theorem updateNode_ok [HasShape τ] {tn tn' : TN τ} {n : Nm} {t : τ}
    (h : tn.updateNode n t = (tn', .ok ())) :
    ∃ r E', tn.nodes.get? n = some r ∧
      tn' = { tn with nodes := tn.nodes.set n { r with ten := some t }, edges := E' } ∧
      EdgesLe tn.edges E' ∧
      ∀ sh, HasShape.shape t = some sh → r.legs.length ≤ sh.length := by
  rcases updateNode_frame tn n t with ⟨_, _, h1⟩ | ⟨r, E', hr, h1, hle⟩
  · rw [h] at h1; simp at h1
  · rw [h] at h1
    refine ⟨r, E', hr, h1, hle, fun sh hsh => ?_⟩
    unfold updateNode at h
    simp only [hr, hsh] at h
    unfold legDims at h
    by_cases hl : r.legs.length ≤ sh.length
    · exact hl
    · simp [hl] at h

/-- A successful `add_node`. -/
theorem addNode_ok [HasShape τ] {tn tn' : TN τ} {name : Option Nm} {ident : Nm}
    {edges : Option (List Nm)} {t : τ} {isOpen : Bool} {n : Nm}
    (hok : tn.addNode name ident edges t isOpen = (tn', .ok n)) :
    n = name.getD ident ∧ tn.nameTaken name = false ∧
    ∃ legs frozen E', newLegs edges (HasShape.shape t) = some (legs, frozen) ∧
      tn' = { nodes := tn.nodes.set n { legs := legs, ten := some t, frozen := frozen }
              edges := E'
              adj := addAdjs tn.adj (legs.map fun e => (n, e))
              openE := tn.openE ++ (if isOpen then legs else [])
              idCount := tn.idCount } ∧
      EdgesExt tn.edges legs E' ∧
      ∀ sh, HasShape.shape t = some sh → legs.length ≤ sh.length ∧
        ∀ (i : Nat) e d, legs[i]? = some e → sh[i]? = some (some d) →
          ∃ r, E'.get? e = some r ∧ r.dim = some d := by
  unfold TN.addNode at hok
  split at hok
  · simp at hok
  · next hnt =>
    generalize hnm : name.getD ident = nm at hok
    simp only at hok
    split at hok
    · simp at hok
    · next es frozen hes =>
      generalize hsh : HasShape.shape t = shape at hok
      have hall : ∀ t2, (tn.putNode nm es frozen).addNodeEdges shape 0 es = (t2, .ok ()) → _ :=
        fun t2 h => And.intro (addNodeEdges_ok h) (addNodeEdges_ext h)
      revert hok hall
      generalize (tn.putNode nm es frozen).addNodeEdges shape 0 es = res
      obtain ⟨t2, o⟩ := res
      intro hok hall
      cases o with
      | error er => simp at hok
      | ok u =>
        obtain ⟨hdim, E1, h1, g1⟩ := hall t2 rfl
        subst h1
        have g1 : EdgesExt tn.edges es E1 := g1
        simp only [putNode] at hok
        have hup : ∀ t4, updateNode { tn with
            nodes := tn.nodes.set nm
              { legs := es, ten := (tn.nodes.get? nm).bind NodeRec.ten, frozen := frozen },
            edges := E1, adj := addAdjs tn.adj (es.map fun e => (nm, e)) } nm t = (t4, .ok ()) → _ :=
          fun t4 h => updateNode_ok h
        revert hok hup
        generalize TN.updateNode _ nm t = res4
        obtain ⟨t4, o4⟩ := res4
        intro hok hup
        cases o4 with
        | error er => simp at hok
        | ok u =>
          obtain ⟨r, E4, hr, h4, hle, hlen⟩ := hup t4 rfl
          have hr : (tn.nodes.set nm _).get? nm = some r := hr
          rw [Dict.get?_set, if_pos rfl] at hr
          cases hr
          have hle : EdgesLe E1 E4 := hle
          rw [Dict.set_set] at h4
          have g4 : EdgesExt tn.edges es E4 := (g1.trans hle.ext).of_mem (by simp)
          have hkeys : ∀ e ∈ es, e ∈ E4.keys := fun e he => (g4.keys e).2 (Or.inr he)
          have hfin : (tn', (Except.ok n : Except Err Nm)) = ({ t4 with
              openE := t4.openE ++ (if isOpen then es else []) }, .ok nm) := by
            simp only at hok
            cases isOpen with
            | false => simp only [Bool.false_eq_true, if_false] at hok; rw [← hok]; simp
            | true =>
              simp only [if_true] at hok
              rw [openAll_of_mem (by subst h4; exact hkeys)] at hok
              rw [← hok]; simp
          simp only [Prod.mk.injEq, Except.ok.injEq] at hfin
          obtain ⟨hf1, hf2⟩ := hfin
          subst hf2
          refine ⟨rfl, by simpa using hnt, es, frozen, E4, hsh ▸ hes, ?_, g4, ?_⟩
          · rw [hf1, h4]
          · intro sh hsh'
            refine ⟨hlen sh (by rw [hsh, hsh']), fun i e d hi hd => ?_⟩
            obtain ⟨dim, h5, r', hr', hd'⟩ := hdim i e hi
            rw [hsh'] at h5
            simp only [dimAt, Nat.zero_add, hd, Option.some.injEq] at h5
            obtain ⟨r'', hr'', _, hd''⟩ := hle.ent e r' hr'
            exact ⟨r'', hr'', hd'' d (hd' d h5.symm)⟩

end TN
end Verif
