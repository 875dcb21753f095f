import Verif.Model.Copy
import Verif.Lemmas.Consistent
/-! # Which lists an editing call leaves alone -/

namespace Verif

variable {τ : Type}

/-- Every node of `N'` to which nothing is done is a node of `N` with the same legs. -/
structure LegsKept (keep : Nm → Prop) (N N' : Dict Nm (NodeRec τ)) : Prop where
  nodup : N.keys.Nodup → N'.keys.Nodup
  ent : ∀ n r', N'.get? n = some r' → keep n → ∃ r, N.get? n = some r ∧ r'.legs = r.legs

/-- Every fixed edge of `E'` to which nothing is done is an edge of `E` fixed in the same way. -/
structure FixKept (keep : Nm → Prop) (E E' : Dict Nm EdgeRec) : Prop where
  nodup : E.keys.Nodup → E'.keys.Nodup
  ent : ∀ e r' f, E'.get? e = some r' → r'.fix = some f → keep e → ∃ r, E.get? e = some r ∧ r.fix = some f

namespace LegsKept

theorem refl (k : Nm → Prop) (N : Dict Nm (NodeRec τ)) : LegsKept k N N := ⟨id, fun _ r h _ => ⟨r, h, rfl⟩⟩

theorem trans {k : Nm → Prop} {N N' N'' : Dict Nm (NodeRec τ)} (h : LegsKept k N N') (h' : LegsKept k N' N'') :
    LegsKept k N N'' := by
  refine ⟨fun x => h'.nodup (h.nodup x), fun n r hr hk => ?_⟩
  obtain ⟨r1, h1, e1⟩ := h'.ent n r hr hk
  obtain ⟨r2, h2, e2⟩ := h.ent n r1 h1 hk
  exact ⟨r2, h2, e1.trans e2⟩

theorem set {k : Nm → Prop} {N : Dict Nm (NodeRec τ)} {n : Nm} {r : NodeRec τ}
    (h : k n → ∃ r0, N.get? n = some r0 ∧ r.legs = r0.legs) : LegsKept k N (N.set n r) := by
  refine ⟨fun x => Dict.nodup_keys_set x _ _, fun n' r' hr hk => ?_⟩
  rw [Dict.get?_set] at hr
  split at hr
  · next e => subst e; cases hr; exact h hk
  · exact ⟨r', hr, rfl⟩

theorem del (k : Nm → Prop) (N : Dict Nm (NodeRec τ)) (n : Nm) : LegsKept k N (N.del n) := by
  refine ⟨fun x => Dict.nodup_keys_del x _, fun n' r' hr _ => ?_⟩
  rw [Dict.get?_del] at hr
  split at hr
  · cases hr
  · exact ⟨r', hr, rfl⟩

theorem filterKeys (k : Nm → Prop) (N : Dict Nm (NodeRec τ)) (c : Nm → Bool) : LegsKept k N (N.filterKeys c) := by
  refine ⟨fun x => by rw [Dict.keys_filterKeys]; exact x.filter _, fun n' r' hr _ => ?_⟩
  rw [Dict.get?_filterKeys] at hr
  split at hr
  · exact ⟨r', hr, rfl⟩
  · cases hr

theorem mapIf {k : Nm → Prop} {N : Dict Nm (NodeRec τ)} {c : Nm → Bool} {g : NodeRec τ → NodeRec τ}
    (h : ∀ n, k n → c n = false) : LegsKept k N (N.mapIf c g) := by
  refine ⟨fun x => by rw [Dict.keys_mapIf]; exact x, fun n' r' hr hk => ?_⟩
  rw [Dict.get?_mapIf, h n' hk] at hr
  simp only [Bool.false_eq_true, if_false] at hr
  cases hN : N.get? n' with
  | none => rw [hN] at hr; simp at hr
  | some r => rw [hN] at hr; simp at hr; exact ⟨r, rfl, by rw [← hr]⟩

end LegsKept

namespace FixKept

theorem refl (k : Nm → Prop) (E : Dict Nm EdgeRec) : FixKept k E E := ⟨id, fun _ r _ h hf _ => ⟨r, h, hf⟩⟩

theorem trans {k : Nm → Prop} {E E' E'' : Dict Nm EdgeRec} (h : FixKept k E E') (h' : FixKept k E' E'') :
    FixKept k E E'' := by
  refine ⟨fun x => h'.nodup (h.nodup x), fun e r f hr hf hk => ?_⟩
  obtain ⟨r1, h1, e1⟩ := h'.ent e r f hr hf hk
  exact h.ent e r1 f h1 e1 hk

theorem mono {k k' : Nm → Prop} {E E' : Dict Nm EdgeRec} (h : FixKept k E E') (hk : ∀ e, k' e → k e) :
    FixKept k' E E' := ⟨h.nodup, fun e r f hr hf he => h.ent e r f hr hf (hk e he)⟩

theorem set {k : Nm → Prop} {E : Dict Nm EdgeRec} {e : Nm} {r : EdgeRec}
    (h : ∀ f, r.fix = some f → k e → ∃ r0, E.get? e = some r0 ∧ r0.fix = some f) : FixKept k E (E.set e r) := by
  refine ⟨fun x => Dict.nodup_keys_set x _ _, fun e' r' f hr hf hk => ?_⟩
  rw [Dict.get?_set] at hr
  split at hr
  · next he => subst he; cases hr; exact h f hf hk
  · exact ⟨r', hr, hf⟩

theorem del (k : Nm → Prop) (E : Dict Nm EdgeRec) (e : Nm) : FixKept k E (E.del e) := by
  refine ⟨fun x => Dict.nodup_keys_del x _, fun e' r' f hr hf _ => ?_⟩
  rw [Dict.get?_del] at hr
  split at hr
  · cases hr
  · exact ⟨r', hr, hf⟩

theorem filterKeys (k : Nm → Prop) (E : Dict Nm EdgeRec) (c : Nm → Bool) : FixKept k E (E.filterKeys c) := by
  refine ⟨fun x => by rw [Dict.keys_filterKeys]; exact x.filter _, fun n' r' f hr hf _ => ?_⟩
  rw [Dict.get?_filterKeys] at hr
  split at hr
  · exact ⟨r', hr, hf⟩
  · cases hr

theorem le {E E' : Dict Nm EdgeRec} (k : Nm → Prop) (h : EdgesLe E E') : FixKept k E E' := by
  refine ⟨fun x => h.keys ▸ x, fun e r f hr hf _ => ?_⟩
  have hm : e ∈ E.keys := h.keys ▸ Dict.mem_keys_of_get? hr
  obtain ⟨r0, h0⟩ := Dict.exists_get? hm
  obtain ⟨r1, h1, e1, _⟩ := h.ent e r0 h0
  rw [hr] at h1; cases h1
  exact ⟨r0, h0, by rw [← e1, hf]⟩

end FixKept

namespace TN

theorem addEdge_fixKept (tn : TN τ) (name : Option Nm) (dim : Option Nat) (k : Nm → Prop) :
    (tn.addEdge name dim).1.nodes = tn.nodes ∧ FixKept k tn.edges (tn.addEdge name dim).1.edges := by
  obtain ⟨E', c', h, hE⟩ := addEdge_frame tn name dim
  rw [h]
  refine ⟨rfl, ?_⟩
  rcases hE with hE | ⟨e, _, rfl, _⟩
  · exact .le k hE
  · exact .set fun f hf => by cases hf

theorem updateDimension_fixKept (tn : TN τ) (dic : Dict Nm (Option Nat)) (k : Nm → Prop) :
    (tn.updateDimension dic).1.nodes = tn.nodes ∧ FixKept k tn.edges (tn.updateDimension dic).1.edges := by
  obtain ⟨E', h, hE⟩ := updateDimension_frame tn dic
  rw [h]
  exact ⟨rfl, .le k hE⟩

theorem openEdge_fixKept (tn : TN τ) (e : Nm) (dim : Option Nat) (k : Nm → Prop) :
    (tn.openEdge e dim).1.nodes = tn.nodes ∧ FixKept k tn.edges (tn.openEdge e dim).1.edges := by
  unfold openEdge
  split
  · exact ⟨rfl, .refl _ _⟩
  · have h := addEdge_fixKept tn (some e) dim k
    revert h
    generalize tn.addEdge (some e) dim = r
    obtain ⟨t, o⟩ := r
    intro h
    cases o <;> exact h

theorem openAll_fixKept (tn : TN τ) (es : List Nm) (k : Nm → Prop) :
    (tn.openAll es).1.nodes = tn.nodes ∧ FixKept k tn.edges (tn.openAll es).1.edges := by
  refine forLoop_inv (P := fun t : TN τ => t.nodes = tn.nodes ∧ FixKept k tn.edges t.edges) ?_ es tn ⟨rfl, .refl _ _⟩
  rintro t e ⟨h1, h2⟩
  obtain ⟨h3, h4⟩ := openEdge_fixKept t e none k
  exact ⟨h3.trans h1, h2.trans h4⟩

theorem addNodeEdges_fixKept (tn : TN τ) (shape : Option (List (Option Nat))) (i : Nat) (es : List Nm) (k : Nm → Prop) :
    (tn.addNodeEdges shape i es).1.nodes = tn.nodes ∧ FixKept k tn.edges (tn.addNodeEdges shape i es).1.edges := by
  induction es generalizing tn i with
  | nil => exact ⟨rfl, .refl _ _⟩
  | cons e es ih =>
    unfold addNodeEdges
    split
    · exact ⟨rfl, .refl _ _⟩
    · next dim hdim =>
      have h := addEdge_fixKept tn (some e) dim k
      revert h
      generalize tn.addEdge (some e) dim = r
      obtain ⟨t, o⟩ := r
      intro h
      cases o with
      | error er => exact h
      | ok u => exact ⟨(ih t (i + 1)).1.trans h.1, h.2.trans (ih t (i + 1)).2⟩

theorem updateNode_fixKept [HasShape τ] (tn : TN τ) (n : Nm) (t : τ) (k k' : Nm → Prop) :
    LegsKept k tn.nodes (tn.updateNode n t).1.nodes ∧ FixKept k' tn.edges (tn.updateNode n t).1.edges := by
  rcases updateNode_frame tn n t with ⟨h, _⟩ | ⟨r, E', hr, h, hE⟩
  · rw [h]; exact ⟨.refl _ _, .refl _ _⟩
  · rw [h]; exact ⟨.set fun _ => ⟨r, hr, rfl⟩, .le _ hE⟩

theorem addNode_kept [HasShape τ] (tn : TN τ) (name : Option Nm) (ident : Nm) (edges : Option (List Nm)) (t : τ)
    (isOpen : Bool) (k' : Nm → Prop) :
    LegsKept (fun n => tn.addWrite name ident edges t n = .keep) tn.nodes (tn.addNode name ident edges t isOpen).1.nodes ∧
    FixKept k' tn.edges (tn.addNode name ident edges t isOpen).1.edges := by
  unfold addNode
  split
  · exact ⟨.refl _ _, .refl _ _⟩
  next hn =>
  simp only
  split
  · exact ⟨.refl _ _, .refl _ _⟩
  next es frozen hl =>
  have h0 : LegsKept (fun n => tn.addWrite name ident edges t n = .keep) tn.nodes
      (tn.putNode (name.getD ident) es frozen).nodes := by
    refine .set fun hk => ?_
    rw [addWrite, if_pos ⟨rfl, by simpa using hn, by rw [hl]; rfl⟩] at hk
    cases hk
  have h1 := addNodeEdges_fixKept (tn.putNode (name.getD ident) es frozen) (HasShape.shape t) 0 es k'
  revert h1
  generalize (tn.putNode (name.getD ident) es frozen).addNodeEdges (HasShape.shape t) 0 es = r
  obtain ⟨t1, o⟩ := r
  rintro ⟨h1, h1'⟩
  dsimp only at h1 h1'
  rw [← h1] at h0
  replace h1' : FixKept k' tn.edges t1.edges := h1'
  cases o with
  | error er => exact ⟨h0, h1'⟩
  | ok u =>
    simp only
    have h2 := updateNode_fixKept ({ t1 with adj := addAdjs t1.adj (es.map fun e => (name.getD ident, e)) } : TN τ)
      (name.getD ident) t (fun n => tn.addWrite name ident edges t n = .keep) k'
    revert h2
    generalize ({ t1 with adj := addAdjs t1.adj (es.map fun e => (name.getD ident, e)) } : TN τ).updateNode (name.getD ident) t = r2
    obtain ⟨t2, o2⟩ := r2
    rintro ⟨h2, h2'⟩
    replace h2 := h0.trans h2
    replace h2' := h1'.trans h2'
    cases o2 with
    | error er => exact ⟨h2, h2'⟩
    | ok u =>
      simp only
      split
      · have h3 := openAll_fixKept t2 es k'
        revert h3
        generalize t2.openAll es = r3
        obtain ⟨t3, o3⟩ := r3
        rintro ⟨h3, h3'⟩
        dsimp only at h3 h3'
        rw [← h3] at h2
        cases o3 <;> exact ⟨h2, h2'.trans h3'⟩
      · exact ⟨h2, h2'⟩

theorem fixEdge_kept (tn : TN τ) (e : Nm) (vals : List Nat) (cf : Bool) (k : Nm → Prop)
    (hk : k e → tn.fixWrite1 e vals cf = .keep) :
    (tn.fixEdge e vals cf).1.nodes = tn.nodes ∧ (tn.fixEdge e vals cf).1.openE = tn.openE ∧
    (tn.fixEdge e vals cf).1.adj = tn.adj ∧ FixKept k tn.edges (tn.fixEdge e vals cf).1.edges := by
  have hfr := fixEdge_frame tn e vals cf
  have hok : k e → ∃ er, (tn.fixEdge e vals cf).2 = .error er := by
    intro h
    have := hk h
    unfold fixWrite1 at this
    split at this
    · next er h => exact ⟨er, by rw [h]⟩
    · split at this <;> cases this
  have herr : ∀ er, (tn.fixEdge e vals cf).2 = .error er → (tn.fixEdge e vals cf).1 = tn := by
    intro er
    unfold fixEdge
    split
    · intro _; rfl
    · split
      · intro _; rfl
      · split
        · split
          · intro h; cases h
          · split
            · split
              · intro h; cases h
              · intro _; rfl
            · intro h; cases h
        · intro _; rfl
  rcases hfr with h | ⟨r, f, hr, h⟩
  · rw [h]; exact ⟨rfl, rfl, rfl, .refl _ _⟩
  · refine ⟨by rw [h], by rw [h], by rw [h], ?_⟩
    by_cases hke : k e
    · obtain ⟨er, he⟩ := hok hke
      rw [herr er he]; exact .refl _ _
    · rw [h]; exact .set fun _ _ hc => absurd hc hke

theorem fix1_kept (tn : TN τ) (e : Nm) (k : Nm → Prop) (kk : Nm → Prop)
    (hk : ∀ n, k n → ∀ x r f, (n, x) ∈ tn.adj → tn.edges.get? x = some r → r.fix = some f → False) :
    LegsKept k tn.nodes (tn.fix1 e).nodes ∧ FixKept kk tn.edges (tn.fix1 e).edges ∧
      (∀ p ∈ (tn.fix1 e).adj, p ∈ tn.adj) ∧ ∀ x r, (tn.fix1 e).edges.get? x = some r → tn.edges.get? x = some r := by
  unfold fix1
  split
  · next d f hr =>
    have hl : LegsKept k tn.nodes (tn.nodes.mapIf (tn.nodeOfEdges [e]) (dropLeg e)) := by
      refine .mapIf fun n hn => ?_
      rw [Bool.eq_false_iff]
      intro hc
      unfold nodeOfEdges at hc
      rw [List.any_eq_true] at hc
      obtain ⟨⟨a, b⟩, hp, hc⟩ := hc
      simp only [List.contains_cons, List.contains_nil, Bool.or_false, Bool.and_eq_true, beq_iff_eq] at hc
      obtain ⟨rfl, rfl⟩ := hc
      exact hk _ hn _ _ f hp hr rfl
    simp only
    split
    · exact ⟨hl, .refl _ _, fun p hp => List.mem_of_mem_filter hp, fun _ _ h => h⟩
    · refine ⟨hl, .del _ _ _, fun p hp => List.mem_of_mem_filter hp, fun x r h => ?_⟩
      dsimp only at h
      rw [Dict.get?_del] at h
      split at h
      · cases h
      · exact h
  · exact ⟨.refl _ _, .refl _ _, fun _ h => h, fun _ _ h => h⟩

theorem fixAll_kept (tn : TN τ) (k kk : Nm → Prop)
    (hk : ∀ n, k n → ∀ x r f, (n, x) ∈ tn.adj → tn.edges.get? x = some r → r.fix = some f → False) :
    LegsKept k tn.nodes tn.fixAll.nodes ∧ FixKept kk tn.edges tn.fixAll.edges := by
  unfold fixAll
  generalize tn.edges.keys = ks
  induction ks generalizing tn with
  | nil => exact ⟨.refl _ _, .refl _ _⟩
  | cons e ks ih =>
    obtain ⟨h1, h2, h3, h4⟩ := fix1_kept tn e k kk hk
    obtain ⟨h5, h6⟩ := ih (tn.fix1 e) fun n hn x r f hp hx hf => hk n hn x r f (h3 _ hp) (h4 _ _ hx) hf
    exact ⟨h1.trans h5, h2.trans h6⟩

theorem mergeFix_kept (tn : TN τ) (m : Nm) (f : Option (List Nat)) (k : Nm → Prop)
    (hk : k m → f = none ∨ ∃ er, (tn.mergeFix m f).2 = .error er) :
    (tn.mergeFix m f).1.nodes = tn.nodes ∧ FixKept k tn.edges (tn.mergeFix m f).1.edges := by
  unfold mergeFix at hk ⊢
  split
  · next f =>
    have := fixEdge_kept tn m f false k fun h => by
      rcases hk h with h | ⟨er, h⟩
      · cases h
      · change (tn.fixEdge m f false).2 = .error er at h
        unfold fixWrite1
        revert h
        generalize tn.fixEdge m f false = r
        obtain ⟨t, o⟩ := r
        rintro ⟨⟩
        rfl
    exact ⟨this.1, this.2.2.2⟩
  · exact ⟨rfl, .refl _ _⟩

theorem mergeLoop_kept (m : Nm) (es : List Nm) (tn : TN τ) :
    (forLoop (mergeStep m) es tn).1.nodes = tn.nodes ∧
    FixKept (fun e => e ≠ m ∨ mergeFixed m es tn = false) tn.edges (forLoop (mergeStep m) es tn).1.edges := by
  induction es generalizing tn with
  | nil => exact ⟨rfl, .refl _ _⟩
  | cons e es ih =>
    unfold forLoop mergeFixed
    unfold mergeStep
    cases hr : tn.edges.get? e with
    | none => exact ⟨rfl, .refl _ _⟩
    | some r =>
      simp only
      have hf : ∀ k : Nm → Prop, (k m → r.fix = none ∨ ∃ er, (tn.mergeFix m r.fix).2 = .error er) → _ :=
        fun k hk => mergeFix_kept tn m r.fix k hk
      cases hm : tn.mergeFix m r.fix with
      | mk t o =>
      rw [hm] at hf
      cases o with
      | error er =>
        simp only
        have := hf (fun _ => True) fun _ => Or.inr ⟨er, rfl⟩
        exact ⟨this.1, this.2.mono fun _ _ => trivial⟩
      | ok u =>
        simp only
        cases hrf : r.fix with
        | none =>
          obtain ⟨h1, h2⟩ := hf (fun _ => True) fun _ => Or.inl hrf
          simp only [Option.isSome_none, Bool.false_or]
          by_cases he : e = m
          · simp only [if_pos he]
            obtain ⟨h3, h4⟩ := ih ({ t with adj := addAdjs t.adj ((t.adjOfEdge e).map fun n => (n, m)) } : TN τ)
            exact ⟨h3.trans h1, (h2.mono fun _ _ => trivial).trans h4⟩
          · simp only [if_neg he]
            obtain ⟨h3, h4⟩ := ih ({ t with edges := t.edges.del e, adj := (addAdjs t.adj ((t.adjOfEdge e).map fun n => (n, m))).filter (·.2 ≠ e) } : TN τ)
            exact ⟨h3.trans h1, (h2.mono fun _ _ => trivial).trans (FixKept.trans (.del _ _ e) h4)⟩
        | some f =>
          obtain ⟨h1, h2⟩ := hf (fun e => e ≠ m) fun h => absurd rfl h
          simp only [Option.isSome_some, Bool.true_or, Bool.true_eq_false, or_false]
          by_cases he : e = m
          · simp only [if_pos he]
            obtain ⟨h3, h4⟩ := ih ({ t with adj := addAdjs t.adj ((t.adjOfEdge e).map fun n => (n, m)) } : TN τ)
            exact ⟨h3.trans h1, h2.trans (h4.mono fun _ h => Or.inl h)⟩
          · simp only [if_neg he]
            obtain ⟨h3, h4⟩ := ih ({ t with edges := t.edges.del e, adj := (addAdjs t.adj ((t.adjOfEdge e).map fun n => (n, m))).filter (·.2 ≠ e) } : TN τ)
            exact ⟨h3.trans h1, h2.trans (FixKept.trans (.del _ _ e) (h4.mono fun _ h => Or.inl h))⟩

/-- `mergeStart` is the beginning of `mergeEdges`. -/
theorem mergeEdges_start (tn : TN τ) (es : List Nm) (mt d : Option Nm) :
    (∃ er t, tn.mergeEdges es mt d = (t, .error er) ∧ tn.mergeStart es mt d = none ∧ t.nodes = tn.nodes ∧
      FixKept (fun _ => True) tn.edges t.edges) ∨
    ∃ m tn2, tn.mergeStart es mt d = some (m, tn2) ∧ tn2.nodes = tn.nodes ∧ FixKept (fun _ => True) tn.edges tn2.edges ∧
      tn.mergeEdges es mt d = match forLoop (mergeStep m) es tn2 with
        | (tn3, .error er) => (tn3, .error er)
        | (tn3, .ok ()) =>
          let tn4 : TN τ := { tn3 with
            nodes := tn3.nodes.mapIf (tn2.nodeOfEdges es) (renameLegs es m)
            openE := tn3.openE.map fun i => if i ∈ es then m else i }
          if tn4.openE.all tn4.edges.has then (tn4, .ok m) else (tn4, .error .assertion) := by
  unfold mergeEdges mergeStart
  cases tn.mergeDim es none with
  | none => exact Or.inl ⟨_, _, rfl, rfl, rfl, .refl _ _⟩
  | some dim =>
    simp only
    cases mt.or d with
    | none => exact Or.inl ⟨_, _, rfl, rfl, rfl, .refl _ _⟩
    | some m =>
      simp only
      have h1 : (if mt.isSome && !tn.edges.has m then (tn.addEdge (some m) none).1 else tn).nodes = tn.nodes ∧
          FixKept (fun _ => True) tn.edges (if mt.isSome && !tn.edges.has m then (tn.addEdge (some m) none).1 else tn).edges := by
        split
        · exact addEdge_fixKept _ _ _ _
        · exact ⟨rfl, .refl _ _⟩
      revert h1
      generalize (if mt.isSome && !tn.edges.has m then (tn.addEdge (some m) none).1 else tn) = t1
      intro h1
      have h2 := updateDimension_fixKept t1 [(m, dim)] (fun _ => True)
      revert h2
      generalize t1.updateDimension [(m, dim)] = r
      obtain ⟨t2, o⟩ := r
      intro h2
      cases o with
      | error er => exact Or.inl ⟨_, _, rfl, rfl, h2.1.trans h1.1, h1.2.trans h2.2⟩
      | ok u => exact Or.inr ⟨_, _, rfl, h2.1.trans h1.1, h1.2.trans h2.2, rfl⟩

theorem rewire_kept [HasShape τ] (tn : TN τ) (n : Nm) (leg : Nat) (dest : Option Nm) (kk : Nm → Prop) :
    LegsKept (fun x => x ≠ n) tn.nodes (tn.rewire n leg dest).1.nodes ∧
    FixKept kk tn.edges (tn.rewire n leg dest).1.edges ∧
    ∀ x r', (tn.rewire n leg dest).1.nodes.get? x = some r' → x ∈ tn.nodes.keys := by
  unfold rewire
  split
  · exact ⟨.refl _ _, .refl _ _, fun _ _ h => Dict.mem_keys_of_get? h⟩
  next r hr =>
  split
  · exact ⟨.refl _ _, .refl _ _, fun _ _ h => Dict.mem_keys_of_get? h⟩
  next t ht =>
  split
  · next dim e _ _ =>
    have h : (tn.rewireTarget dest dim).1.nodes = tn.nodes ∧ FixKept kk tn.edges (tn.rewireTarget dest dim).1.edges := by
      unfold rewireTarget
      split
      · split
        · exact ⟨rfl, .refl _ _⟩
        · exact addEdge_fixKept _ _ _ _
      · exact addEdge_fixKept _ _ _ _
    revert h
    generalize tn.rewireTarget dest dim = res
    obtain ⟨t1, o⟩ := res
    rintro ⟨h1, h2⟩
    dsimp only at h1 h2
    cases o with
    | error er => exact ⟨by rw [h1]; exact .refl _ _, h2, fun _ _ h => by rw [h1] at h; exact Dict.mem_keys_of_get? h⟩
    | ok m =>
      simp only
      have hs : LegsKept (fun x => x ≠ n) tn.nodes (t1.nodes.set n { r with legs := r.legs.set leg m }) := by
        rw [h1]; exact .set fun h => absurd rfl h
      have hm : ∀ x r', (t1.nodes.set n { r with legs := r.legs.set leg m }).get? x = some r' → x ∈ tn.nodes.keys := by
        intro x r' h
        rw [h1, Dict.get?_set] at h
        split at h
        · next e => exact e ▸ Dict.mem_keys_of_get? hr
        · exact Dict.mem_keys_of_get? h
      split
      · exact ⟨by rw [h1]; exact .refl _ _, h2, fun _ _ h => by rw [h1] at h; exact Dict.mem_keys_of_get? h⟩
      · split
        · exact ⟨hs, h2, hm⟩
        · split
          · exact ⟨hs, h2, hm⟩
          · exact ⟨hs, h2, hm⟩
  · exact ⟨.refl _ _, .refl _ _, fun _ _ h => Dict.mem_keys_of_get? h⟩

theorem unit_fst {α : Type} (r : Res τ α) : r.unit.1 = r.1 := rfl

/-- The lists that `legWrite` and `fixWrite` say nothing is done to are those of before. -/
theorem step_kept [NetTensor τ] (tn : TN τ) (op : Op τ) :
    LegsKept (fun n => tn.legWrite n op = .keep) tn.nodes (tn.step op).1.nodes ∧
    FixKept (fun e => tn.fixWrite e op = .keep) tn.edges (tn.step op).1.edges := by
  cases op with
  | addNode name ident edges t isOpen => exact addNode_kept tn name ident edges t isOpen _
  | popNode n =>
    simp only [step, unit_fst]
    unfold popNode
    split
    · exact ⟨.refl _ _, .refl _ _⟩
    · exact ⟨.del _ _ _, .refl _ _⟩
  | removeNode n =>
    simp only [step, unit_fst]
    unfold removeNode popNode
    split
    · next t r h =>
      split at h
      · cases h
      · cases h; exact ⟨.del _ _ _, .refl _ _⟩
    · next t r h =>
      split at h
      · cases h; exact ⟨.refl _ _, .refl _ _⟩
      · cases h
  | updateNode n t => exact updateNode_fixKept tn n t _ _
  | addEdge name dim =>
    obtain ⟨h1, h2⟩ := addEdge_fixKept tn name dim (fun e => tn.fixWrite e (.addEdge name dim) = .keep)
    exact ⟨by simp only [step, unit_fst, h1]; exact .refl _ _, h2⟩
  | openEdge e dim =>
    obtain ⟨h1, h2⟩ := openEdge_fixKept tn e dim (fun x => tn.fixWrite x (.openEdge e dim) = .keep)
    exact ⟨by simp only [step, h1]; exact .refl _ _, h2⟩
  | closeEdge e => exact ⟨.refl _ _, .refl _ _⟩
  | fixEdge e vals cf =>
    obtain ⟨h1, _, _, h2⟩ := fixEdge_kept tn e vals cf (fun x => tn.fixWrite x (.fixEdge e vals cf) = .keep)
      (fun h => by simpa [fixWrite] using h)
    exact ⟨by simp only [step, h1]; exact .refl _ _, h2⟩
  | fixIndex i v =>
    simp only [step]
    unfold fixIndex
    cases he : tn.openE[i]? with
    | none => exact ⟨.refl _ _, .refl _ _⟩
    | some e =>
      obtain ⟨h1, _, _, h2⟩ := fixEdge_kept tn e [v] false (fun x => tn.fixWrite x (.fixIndex i v) = .keep)
        (fun h => by simpa [fixWrite, he] using h)
      simp only
      revert h1 h2
      generalize tn.fixEdge e [v] = r
      obtain ⟨t, o⟩ := r
      intro h1 h2
      dsimp only at h1 h2
      cases o with
      | error er => exact ⟨by rw [h1]; exact .refl _ _, h2⟩
      | ok u => exact ⟨by rw [h1]; exact .refl _ _, h2⟩
  | fix =>
    refine fixAll_kept tn _ _ fun n hn x r f hp hx hf => ?_
    simp only [legWrite] at hn
    rw [if_pos] at hn
    · cases hn
    · rw [List.any_eq_true]
      exact ⟨_, hp, by simp [hx, hf]⟩
  | mergeEdges es m d =>
    simp only [step, unit_fst, legWrite, fixWrite]
    rcases mergeEdges_start tn es m d with ⟨er, t, h, hs, h1, h2⟩ | ⟨m', t2, hs, h1, h2, h⟩
    · rw [h, hs]
      exact ⟨by rw [h1]; exact .refl _ _, h2.mono fun _ _ => trivial⟩
    · rw [h, hs]
      obtain ⟨h3, h4⟩ := mergeLoop_kept m' es t2
      simp only
      replace h4 : FixKept (fun e => (if e = m' ∧ mergeFixed m' es t2 = true then Write.fresh else Write.keep) = .keep)
          tn.edges (forLoop (mergeStep m') es t2).1.edges := by
        refine FixKept.trans (h2.mono fun _ _ => trivial) (h4.mono fun e he => ?_)
        by_contra hc
        rw [not_or] at hc
        rw [if_pos ⟨not_not.1 hc.1, by simpa using hc.2⟩] at he
        cases he
      revert h3 h4
      generalize forLoop (mergeStep m') es t2 = r
      obtain ⟨t3, o⟩ := r
      intro h3 h4
      dsimp only at h3 h4
      cases o with
      | error er => exact ⟨by rw [h3, h1]; exact .refl _ _, h4⟩
      | ok u =>
        simp only
        have hl : LegsKept (fun n => (if t2.nodeOfEdges es n = true then Write.fresh else Write.keep) = .keep) tn.nodes
            (t3.nodes.mapIf (t2.nodeOfEdges es) (renameLegs es m')) := by
          rw [h3, h1]
          refine .mapIf fun n hn => ?_
          by_contra hc
          rw [if_pos (by simpa using hc)] at hn
          cases hn
        split
        · exact ⟨hl, h4⟩
        · exact ⟨hl, h4⟩
  | rewire n leg dest =>
    obtain ⟨h1, h2, h3⟩ := rewire_kept tn n leg dest (fun e => tn.fixWrite e (.rewire n leg dest) = .keep)
    refine ⟨⟨h1.nodup, fun x r' hr hx => h1.ent x r' hr ?_⟩, h2⟩
    rintro rfl
    simp [legWrite] at hx
  | encapsulate ns opn name ident =>
    simp only [step, unit_fst, legWrite]
    unfold encapsulate
    cases tn.subtn ns opn with
    | error er => exact ⟨.refl _ _, .refl _ _⟩
    | ok stn =>
      simp only
      obtain ⟨h1, h2⟩ := addNode_kept (tn.dropSub ns (tn.closedOfNodes ns)) name ident (some stn.openE)
        (NetTensor.ofNet stn) false (fun e => tn.fixWrite e (.encapsulate ns opn name ident) = .keep)
      exact ⟨(LegsKept.filterKeys _ tn.nodes fun n => !(ns.contains n)).trans h1,
        (FixKept.filterKeys _ tn.edges fun e => !((tn.closedOfNodes ns).contains e)).trans h2⟩

end TN
end Verif
