import Verif.Model.TN
/-! # Helper lemmas on network edits -/

namespace Verif

/-- An invariant of every iteration is an invariant of the loop, also when it is left by an exception. -/
theorem forLoop_inv {S A : Type} {f : S → A → S × Except Err Unit} {P : S → Prop}
    (h : ∀ s a, P s → P (f s a).1) (l : List A) (s : S) (hs : P s) : P (forLoop f l s).1 := by
  induction l generalizing s with
  | nil => exact hs
  | cons x xs ih =>
    unfold forLoop
    have := h s x hs
    revert this
    generalize f s x = r
    obtain ⟨s', o⟩ := r
    intro h1
    cases o with
    | ok u => exact ih s' h1
    | error e => exact h1

/-- Invariants with membership of the loop variable. -/
theorem forLoop_inv_mem {S A : Type} {f : S → A → S × Except Err Unit} {P : S → Prop}
    (l : List A) (h : ∀ s, ∀ a ∈ l, P s → P (f s a).1) (s : S) (hs : P s) : P (forLoop f l s).1 := by
  induction l generalizing s with
  | nil => exact hs
  | cons x xs ih =>
    unfold forLoop
    have := h s x (by simp) hs
    revert this
    generalize f s x = r
    obtain ⟨s', o⟩ := r
    intro h1
    cases o with
    | ok u => exact ih (fun s a ha => h s a (by simp [ha])) s' h1
    | error e => exact h1

theorem forLoop_cons_ok {S A : Type} {f : S → A → S × Except Err Unit} {x : A} {xs : List A} {s s' : S}
    (h : forLoop f (x :: xs) s = (s', .ok ())) :
    ∃ s1, f s x = (s1, .ok ()) ∧ forLoop f xs s1 = (s', .ok ()) := by
  unfold forLoop at h
  revert h
  generalize f s x = r
  obtain ⟨s1, o⟩ := r
  cases o with
  | ok u => intro h; exact ⟨s1, rfl, h⟩
  | error e => intro h; simp at h

/-- `EdgesLe E E'`: `E'` has the same edges as `E`, in the same order, with the same fixes, and only
wildcard dimensions may have been replaced. -/
structure EdgesLe (E E' : Dict Nm EdgeRec) : Prop where
  keys : E'.keys = E.keys
  ent : ∀ e r, E.get? e = some r → ∃ r', E'.get? e = some r' ∧ r'.fix = r.fix ∧
    (∀ d, r.dim = some d → r'.dim = some d)

theorem EdgesLe.refl (E : Dict Nm EdgeRec) : EdgesLe E E := ⟨rfl, fun _ r h => ⟨r, h, rfl, fun _ h => h⟩⟩

theorem EdgesLe.trans {E E' E'' : Dict Nm EdgeRec} (h : EdgesLe E E') (h' : EdgesLe E' E'') :
    EdgesLe E E'' := by
  refine ⟨h'.keys.trans h.keys, fun e r hr => ?_⟩
  obtain ⟨r', hr', hf', hd'⟩ := h.ent e r hr
  obtain ⟨r'', hr'', hf'', hd''⟩ := h'.ent e r' hr'
  exact ⟨r'', hr'', hf''.trans hf', fun d hd => hd'' d (hd' d hd)⟩

/-- `EdgesGrow E E'`: all edges of `E` are still there, in the same order before the new ones, with the same fix,
and only wildcard dimensions may have been replaced. -/
structure EdgesGrow (E E' : Dict Nm EdgeRec) : Prop where
  nodup : E.keys.Nodup → E'.keys.Nodup
  ent : ∀ e r, E.get? e = some r → ∃ r', E'.get? e = some r' ∧ r'.fix = r.fix ∧
    (∀ d, r.dim = some d → r'.dim = some d)
  pre : E.keys <+: E'.keys

theorem EdgesGrow.sub {E E' : Dict Nm EdgeRec} (h : EdgesGrow E E') {e : Nm} (he : e ∈ E.keys) :
    e ∈ E'.keys := by
  obtain ⟨r, hr⟩ := Dict.exists_get? he
  obtain ⟨r', hr', _⟩ := h.ent e r hr
  exact Dict.mem_keys_of_get? hr'

theorem EdgesGrow.refl (E : Dict Nm EdgeRec) : EdgesGrow E E := ⟨id, fun _ r h => ⟨r, h, rfl, fun _ h => h⟩, List.prefix_rfl⟩

theorem EdgesGrow.trans {E E' E'' : Dict Nm EdgeRec} (h : EdgesGrow E E') (h' : EdgesGrow E' E'') :
    EdgesGrow E E'' := by
  refine ⟨fun hn => h'.nodup (h.nodup hn), fun e r hr => ?_, h.pre.trans h'.pre⟩
  obtain ⟨r', hr', hf', hd'⟩ := h.ent e r hr
  obtain ⟨r'', hr'', hf'', hd''⟩ := h'.ent e r' hr'
  exact ⟨r'', hr'', hf''.trans hf', fun d hd => hd'' d (hd' d hd)⟩

theorem EdgesLe.grow {E E' : Dict Nm EdgeRec} (h : EdgesLe E E') : EdgesGrow E E' :=
  ⟨fun hn => h.keys ▸ hn, h.ent, by rw [h.keys]; exact List.prefix_rfl⟩

theorem EdgesGrow.set_new {E : Dict Nm EdgeRec} {e : Nm} (he : e ∉ E.keys) (r : EdgeRec) :
    EdgesGrow E (E.set e r) := by
  refine ⟨fun hn => Dict.nodup_keys_set hn _ _, fun e' r' hr' => ⟨r', ?_, rfl, fun _ h => h⟩,
    by rw [Dict.keys_set, if_neg he]; exact List.prefix_append _ _⟩
  rw [Dict.get?_set, if_neg, hr']
  rintro rfl
  exact he (Dict.mem_keys_of_get? hr')

namespace TN

variable {τ : Type}

theorem updateDim1_frame (tn : TN τ) (p : Nm × Option Nat) :
    ∃ E', (tn.updateDim1 p).1 = { tn with edges := E' } ∧ EdgesLe tn.edges E' := by
  unfold updateDim1
  split
  · exact ⟨_, rfl, EdgesLe.refl _⟩
  · next r hr =>
    split
    · next hd =>
      refine ⟨_, rfl, ?_, ?_⟩
      · rw [Dict.keys_set, if_pos (Dict.mem_keys_of_get? hr)]
      · intro e r' hr'
        rw [Dict.get?_set]
        by_cases he : p.1 = e
        · subst he
          rw [hr] at hr'; cases hr'
          exact ⟨_, if_pos rfl, rfl, fun d h => by rw [hd] at h; cases h⟩
        · exact ⟨r', by rw [if_neg he, hr'], rfl, fun _ h => h⟩
    · split
      · exact ⟨_, rfl, EdgesLe.refl _⟩
      · split <;> exact ⟨_, rfl, EdgesLe.refl _⟩

theorem updateDimension_frame (tn : TN τ) (dic : Dict Nm (Option Nat)) :
    ∃ E', (tn.updateDimension dic).1 = { tn with edges := E' } ∧ EdgesLe tn.edges E' := by
  refine forLoop_inv (P := fun t : TN τ => ∃ E', t = { tn with edges := E' } ∧ EdgesLe tn.edges E')
    ?_ dic tn ⟨_, rfl, EdgesLe.refl _⟩
  rintro _ p ⟨E, rfl, hE⟩
  obtain ⟨E', h1, h2⟩ := updateDim1_frame ({ tn with edges := E } : TN τ) p
  exact ⟨E', by rw [h1], hE.trans h2⟩

/-- After a successful `update_dimension` every definite dimension given is the dimension of its edge. -/
theorem updateDimension_ok {tn tn' : TN τ} {dic : Dict Nm (Option Nat)}
    (h : tn.updateDimension dic = (tn', .ok ())) :
    ∀ p ∈ dic, ∃ r, tn'.edges.get? p.1 = some r ∧ ∀ d, p.2 = some d → r.dim = some d := by
  induction dic generalizing tn with
  | nil => simp
  | cons q dic ih =>
    obtain ⟨t1, h1, h2⟩ := forLoop_cons_ok h
    intro p hp
    rcases List.mem_cons.1 hp with rfl | hp
    · -- after the first step the entry is right, and later steps keep it
      have hfirst : ∃ r, t1.edges.get? p.1 = some r ∧ ∀ d, p.2 = some d → r.dim = some d := by
        unfold updateDim1 at h1
        split at h1
        · simp at h1
        · next r hr =>
          split at h1
          · next hd =>
            simp only [Prod.mk.injEq, and_true] at h1
            subst h1
            exact ⟨_, by rw [Dict.get?_set, if_pos rfl], fun d hd => hd⟩
          · next d hd =>
            split at h1
            · next hp2 =>
              simp only [Prod.mk.injEq, and_true] at h1
              subst h1
              exact ⟨r, hr, fun d' hd' => by rw [hp2] at hd'; cases hd'⟩
            · next d' hp2 =>
              split at h1
              · next hdd =>
                simp only [Prod.mk.injEq, and_true] at h1
                subst h1
                refine ⟨r, hr, fun d'' hd'' => ?_⟩
                rw [hp2] at hd''; cases hd''; rw [hd, hdd]
              · simp at h1
      obtain ⟨r, hr, hd⟩ := hfirst
      obtain ⟨E', hE', hle⟩ := updateDimension_frame t1 dic
      have : tn' = { t1 with edges := E' } := by
        rw [← hE']; unfold updateDimension; rw [h2]
      subst this
      obtain ⟨r', hr', _, hd'⟩ := hle.ent _ r hr
      exact ⟨r', hr', fun d h => hd' d (hd d h)⟩
    · exact ih h2 p hp

/-- `add_edge` keeps everything except the edge table, which may get the new edge appended. -/
theorem addEdgeNamed_frame (tn : TN τ) (e : Nm) (dim : Option Nat) :
    ∃ E', (tn.addEdgeNamed e dim).1 = { tn with edges := E' } ∧
      (EdgesLe tn.edges E' ∧ e ∈ tn.edges.keys ∨ e ∉ tn.edges.keys ∧ E' = tn.edges.set e { dim := dim } ∧
        (tn.addEdgeNamed e dim).2 = .ok e) := by
  unfold addEdgeNamed
  by_cases h : tn.edges.has e
  · simp only [h, if_true]
    have hmem := Dict.has_iff.1 h
    by_cases hd : dim.isSome
    · simp only [hd, if_true]
      obtain ⟨E', hE', hle⟩ := updateDimension_frame tn [(e, dim)]
      refine ⟨E', ?_, Or.inl ⟨hle, hmem⟩⟩
      revert hE'
      generalize tn.updateDimension [(e, dim)] = r
      obtain ⟨t', o⟩ := r
      intro hE'
      cases o <;> exact hE'
    · simp only [hd]
      exact ⟨_, rfl, Or.inl ⟨EdgesLe.refl _, hmem⟩⟩
  · simp only [h]
    exact ⟨_, rfl, Or.inr ⟨fun hc => h (Dict.has_iff.2 hc), rfl, rfl⟩⟩

theorem addEdge_frame (tn : TN τ) (name : Option Nm) (dim : Option Nat) :
    ∃ E' c', (tn.addEdge name dim).1 = { tn with edges := E', idCount := c' } ∧
      (EdgesLe tn.edges E' ∨ ∃ e, e ∉ tn.edges.keys ∧ E' = tn.edges.set e { dim := dim } ∧
        (tn.addEdge name dim).2 = .ok e) := by
  unfold addEdge
  cases name with
  | some e =>
    obtain ⟨E', h1, h2⟩ := addEdgeNamed_frame tn e dim
    exact ⟨E', tn.idCount, h1, h2.imp (·.1) fun h => ⟨e, h⟩⟩
  | none =>
    obtain ⟨E', h1, h2⟩ := addEdgeNamed_frame { tn with idCount := tn.idCount + 1 }
      (Nm.str ("_" ++ toString tn.idCount)) dim
    exact ⟨E', tn.idCount + 1, h1, h2.imp (·.1) fun h => ⟨_, h⟩⟩

/-- After a successful `add_edge` the edge exists, with the given dimension if that is definite. -/
theorem addEdgeNamed_ok {tn tn' : TN τ} {e0 e : Nm} {dim : Option Nat}
    (h : tn.addEdgeNamed e0 dim = (tn', .ok e)) :
    e0 = e ∧ ∃ r, tn'.edges.get? e = some r ∧ ∀ d, dim = some d → r.dim = some d := by
  unfold addEdgeNamed at h
  by_cases hh : tn.edges.has e0
  · simp only [hh, if_true] at h
    by_cases hd : dim.isSome
    · simp only [hd, if_true] at h
      revert h
      generalize hr : tn.updateDimension [(e0, dim)] = r
      obtain ⟨t', o⟩ := r
      cases o with
      | error er => simp
      | ok u =>
        intro h
        simp only [Prod.mk.injEq, Except.ok.injEq] at h
        obtain ⟨rfl, rfl⟩ := h
        exact ⟨rfl, updateDimension_ok hr (e0, dim) (by simp)⟩
    · simp only [hd, Bool.false_eq_true, if_false, Prod.mk.injEq, Except.ok.injEq] at h
      obtain ⟨rfl, rfl⟩ := h
      obtain ⟨r, hr⟩ := Dict.exists_get? (Dict.has_iff.1 hh)
      refine ⟨rfl, r, hr, fun d hdd => ?_⟩
      rw [hdd] at hd; simp at hd
  · simp only [hh, Bool.false_eq_true, if_false, Prod.mk.injEq, Except.ok.injEq] at h
    obtain ⟨rfl, rfl⟩ := h
    exact ⟨rfl, _, by rw [Dict.get?_set, if_pos rfl], fun d hd => hd⟩

theorem addEdge_ok {tn tn' : TN τ} {name : Option Nm} {dim : Option Nat} {e : Nm}
    (h : tn.addEdge name dim = (tn', .ok e)) :
    (∀ e', name = some e' → e' = e) ∧
    ∃ r, tn'.edges.get? e = some r ∧ ∀ d, dim = some d → r.dim = some d := by
  unfold addEdge at h
  cases name with
  | some e0 =>
    obtain ⟨h1, h2⟩ := addEdgeNamed_ok h
    exact ⟨fun e' he' => by cases he'; exact h1, h2⟩
  | none =>
    obtain ⟨_, h2⟩ := addEdgeNamed_ok h
    exact ⟨fun e' he' => (by cases he'), h2⟩

theorem addEdge_grow (tn : TN τ) (name : Option Nm) (dim : Option Nat) :
    ∃ E' c', (tn.addEdge name dim).1 = { tn with edges := E', idCount := c' } ∧ EdgesGrow tn.edges E' := by
  obtain ⟨E', c', h1, h2⟩ := addEdge_frame tn name dim
  refine ⟨E', c', h1, ?_⟩
  rcases h2 with h2 | ⟨e, he, rfl, _⟩
  · exact h2.grow
  · exact EdgesGrow.set_new he _

theorem addEdge_some_grow (tn : TN τ) (e : Nm) (dim : Option Nat) :
    ∃ E', (tn.addEdge (some e) dim).1 = { tn with edges := E' } ∧ EdgesGrow tn.edges E' := by
  obtain ⟨E', h1, h2⟩ := addEdgeNamed_frame tn e dim
  refine ⟨E', h1, ?_⟩
  rcases h2 with h2 | ⟨he, rfl, _⟩
  · exact h2.1.grow
  · exact EdgesGrow.set_new he _

theorem addNodeEdges_grow (tn : TN τ) (shape : Option (List (Option Nat))) (i : Nat) (es : List Nm) :
    ∃ E', (tn.addNodeEdges shape i es).1 = { tn with edges := E' } ∧ EdgesGrow tn.edges E' := by
  induction es generalizing tn i with
  | nil => exact ⟨_, rfl, EdgesGrow.refl _⟩
  | cons e es ih =>
    unfold addNodeEdges
    split
    · exact ⟨_, rfl, EdgesGrow.refl _⟩
    · next dim hdim =>
      obtain ⟨E1, h1, g1⟩ := addEdge_some_grow tn e dim
      revert h1
      generalize tn.addEdge (some e) dim = r
      obtain ⟨t1, o⟩ := r
      intro h1
      have h1 : t1 = { tn with edges := E1 } := h1
      subst h1
      cases o with
      | error er => exact ⟨E1, rfl, g1⟩
      | ok u =>
        obtain ⟨E2, h2, g2⟩ := ih { tn with edges := E1 } (i + 1)
        exact ⟨E2, by rw [h2], g1.trans g2⟩

/-- After a successful loop all edges exist and carry the definite dimensions of the tensor. -/
theorem addNodeEdges_ok {tn tn' : TN τ} {shape : Option (List (Option Nat))} {i : Nat} {es : List Nm}
    (h : tn.addNodeEdges shape i es = (tn', .ok ())) :
    ∀ j e, es[j]? = some e → ∃ dim, dimAt shape (i + j) = some dim ∧
      ∃ r, tn'.edges.get? e = some r ∧ ∀ d, dim = some d → r.dim = some d := by
  induction es generalizing tn i with
  | nil => simp
  | cons e es ih =>
    unfold addNodeEdges at h
    split at h
    · simp at h
    · next dim hdim =>
      have hok : ∀ t1 e1, tn.addEdge (some e) dim = (t1, .ok e1) → _ := fun t1 e1 h => addEdge_ok h
      revert h hok
      generalize tn.addEdge (some e) dim = r
      obtain ⟨t1, o⟩ := r
      cases o with
      | error er => simp
      | ok e1 =>
        intro h hok
        replace h : t1.addNodeEdges shape (i + 1) es = (tn', .ok ()) := h
        obtain ⟨he, r, hr, hd⟩ := hok t1 e1 rfl
        have he : e = e1 := he e rfl
        subst he
        intro j e' hj
        cases j with
        | zero =>
          simp only [List.getElem?_cons_zero, Option.some.injEq] at hj
          subst hj
          obtain ⟨E2, h2, g2⟩ := addNodeEdges_grow t1 shape (i + 1) es
          have : tn' = { t1 with edges := E2 } := by rw [← h2]; exact (congrArg Prod.fst h).symm
          subst this
          obtain ⟨r', hr', _, hd'⟩ := g2.ent _ r hr
          exact ⟨dim, hdim, r', hr', fun d h => hd' d (hd d h)⟩
        | succ j =>
          rw [List.getElem?_cons_succ] at hj
          have := ih h j e' hj
          rwa [Nat.add_assoc, Nat.add_comm 1 j] at this

theorem openEdge_frame (tn : TN τ) (e : Nm) (dim : Option Nat) :
    ∃ E' O', (tn.openEdge e dim).1 = { tn with edges := E', openE := O' } ∧ EdgesGrow tn.edges E' ∧
      ((tn.openEdge e dim).2 = .ok () → O' = tn.openE ++ [e] ∧ e ∈ E'.keys) ∧
      (O' = tn.openE ∨ O' = tn.openE ++ [e] ∧ e ∈ E'.keys) := by
  unfold openEdge
  split
  · next h => exact ⟨_, _, rfl, EdgesGrow.refl _, fun _ => ⟨rfl, Dict.has_iff.1 h⟩,
      Or.inr ⟨rfl, Dict.has_iff.1 h⟩⟩
  · obtain ⟨E1, h1, g1⟩ := addEdge_some_grow tn e dim
    have hok : ∀ t1 e1, tn.addEdge (some e) dim = (t1, .ok e1) → _ := fun t1 e1 h => addEdge_ok h
    revert h1 hok
    generalize tn.addEdge (some e) dim = r
    obtain ⟨t1, o⟩ := r
    intro h1 hok
    have h1 : t1 = { tn with edges := E1 } := h1
    subst h1
    cases o with
    | error er => exact ⟨_, _, rfl, g1, by simp, Or.inl rfl⟩
    | ok u =>
      obtain ⟨he, r, hr, hd⟩ := hok _ u rfl
      have he : e = u := he e rfl
      subst he
      exact ⟨_, _, rfl, g1, fun _ => ⟨rfl, Dict.mem_keys_of_get? hr⟩, Or.inr ⟨rfl, Dict.mem_keys_of_get? hr⟩⟩

theorem updateNode_frame [HasShape τ] (tn : TN τ) (n : Nm) (t : τ) :
    ((tn.updateNode n t).1 = tn ∧ tn.nodes.get? n = none ∧ (tn.updateNode n t).2 = .error .key) ∨
    ∃ r E', tn.nodes.get? n = some r ∧
      (tn.updateNode n t).1 = { tn with nodes := tn.nodes.set n { r with ten := some t }, edges := E' } ∧
      EdgesLe tn.edges E' := by
  unfold updateNode
  split
  · next h => exact Or.inl ⟨rfl, h, rfl⟩
  · next r hr =>
    right
    refine ⟨r, ?_⟩
    simp only
    split
    · obtain ⟨E', h1, h2⟩ := updateDimension_frame
        ({ tn with nodes := tn.nodes.set n { r with ten := some t } } : TN τ)
        (r.legs.foldl (fun d e => d.set e none) [])
      exact ⟨E', hr, h1, h2⟩
    · next sh hsh =>
      split
      · exact ⟨tn.edges, hr, rfl, EdgesLe.refl _⟩
      · next dic hdic =>
        obtain ⟨E', h1, h2⟩ := updateDimension_frame
          ({ tn with nodes := tn.nodes.set n { r with ten := some t } } : TN τ) dic
        exact ⟨E', hr, h1, h2⟩

end TN
end Verif
