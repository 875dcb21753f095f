import Verif.Lemmas.Dims
import Verif.Base.Shp
/-! # C13: rejected edits, and C20: repeated fixes -/

namespace Verif

variable {τ : Type}

/-- C13 for `fix_edge`: when it raises, the network is unchanged. -/
theorem c13_fix_edge_atomic {tn tn' : TN τ} {e : Nm} {vals : List Nat} {cf : Bool} {er : Err}
    (h : tn.fixEdge e vals cf = (tn', .error er)) : tn' = tn := by
  unfold TN.fixEdge at h
  split at h
  · simp only [Prod.mk.injEq] at h; exact h.1.symm
  · split at h
    · simp only [Prod.mk.injEq] at h; exact h.1.symm
    · split at h
      · split at h
        · simp at h
        · split at h
          · split at h
            · simp at h
            · simp only [Prod.mk.injEq] at h; exact h.1.symm
          · simp at h
      · simp only [Prod.mk.injEq] at h; exact h.1.symm

example : ∃ (tn : TN Shp) (tn' : TN Shp) (er : Err), tn.fixEdge (.str "a") [2] false = (tn', .error er) :=
  ⟨{ edges := [(.str "a", { dim := some 2 })] }, _, _, rfl⟩

/-- C13 for `add_node` when the name is taken or the connection is ambiguous, and for `update_node` on a
missing node.  Full statement: whenever one of the four calls raises the network is unchanged; that is
false for a dimension mismatch in `add_node`, `update_node`, `merge_edges` (`c13_..._violated`). -/
theorem c13_add_node_atomic_partial [HasShape τ] {tn tn' : TN τ} {name : Option Nm} {ident : Nm}
    {edges : Option (List Nm)} {t : τ} {isOpen : Bool} {er : Err}
    (h : tn.addNode name ident edges t isOpen = (tn', .error er))
    (hc : (∃ n, name = some n ∧ n ∈ tn.nodes.keys) ∨ (edges = none ∧ HasShape.shape t = none)) :
    tn' = tn := by
  unfold TN.addNode at h
  rcases hc with ⟨n, rfl, hn⟩ | ⟨rfl, hs⟩
  · rw [if_pos (show tn.nameTaken (some n) = true from Dict.has_iff.2 hn)] at h
    simp only [Prod.mk.injEq] at h; exact h.1.symm
  · split at h
    · simp only [Prod.mk.injEq] at h; exact h.1.symm
    · simp only [hs, TN.newLegs, Prod.mk.injEq] at h; exact h.1.symm

example : ∃ (tn tn' : TN Shp) (er : Err),
    tn.addNode (some (.int 0)) (.int 1) (some [.str "a"]) (shp [2]) true = (tn', .error er) ∧
    ((∃ n, (some (.int 0) : Option Nm) = some n ∧ n ∈ tn.nodes.keys)) :=
  ⟨{ nodes := [(.int 0, { legs := [], ten := none })] }, _, _, rfl, _, rfl, by decide⟩

theorem c13_update_node_atomic_partial [HasShape τ] {tn tn' : TN τ} {n : Nm} {t : τ} {er : Err}
    (h : tn.updateNode n t = (tn', .error er)) (hn : n ∉ tn.nodes.keys) : tn' = tn := by
  unfold TN.updateNode at h
  rw [Dict.get?_eq_none.2 hn] at h
  simp only [Prod.mk.injEq] at h; exact h.1.symm

example : ∃ (tn tn' : TN Shp) (er : Err), tn.updateNode (.int 0) (shp [2]) = (tn', .error er) ∧
    (.int 0) ∉ tn.nodes.keys := ⟨{}, _, _, rfl, by decide⟩

/-- C13 for `merge_edges` when a listed edge does not exist, or the dimensions cannot be reconciled and the
target edge existed already. -/
theorem c13_merge_edges_atomic_partial {tn tn' : TN τ} {es : List Nm} {m : Nm} {er : Err}
    (h : tn.mergeEdges es (some m) none = (tn', .error er))
    (hc : (∃ e ∈ es, e ∉ tn.edges.keys) ∨
      (m ∈ tn.edges.keys ∧ ∃ e d d', es.getLast? = some e ∧
        (∃ r, tn.edges.get? e = some r ∧ r.dim = some d) ∧
        (∃ r, tn.edges.get? m = some r ∧ r.dim = some d') ∧ d ≠ d')) :
    tn' = tn := by
  have hdim : ∀ (es : List Nm) (d0 : Option Nat), (∃ e ∈ es, e ∉ tn.edges.keys) → tn.mergeDim es d0 = none := by
    intro es
    induction es with
    | nil => intro _ h; simp at h
    | cons e es ih =>
      rintro d0 ⟨e', he', hk⟩
      unfold TN.mergeDim
      rcases List.mem_cons.1 he' with rfl | he'
      · rw [Dict.get?_eq_none.2 hk]
      · split
        · rfl
        · exact ih _ ⟨e', he', hk⟩
  have hlast : ∀ (es : List Nm) (d0 : Option Nat) (e : Nm) (r : EdgeRec) (x : Option Nat),
      es.getLast? = some e → tn.edges.get? e = some r → tn.mergeDim es d0 = some x → x = r.dim := by
    intro es
    induction es with
    | nil => intro _ _ _ _ h; simp at h
    | cons e0 es ih =>
      intro d0 e r x hl hr hx
      unfold TN.mergeDim at hx
      cases es with
      | nil =>
        simp only [List.getLast?_singleton, Option.some.injEq] at hl
        subst hl
        rw [hr] at hx
        simp only [TN.mergeDim, Option.some.injEq] at hx
        exact hx.symm
      | cons e1 es =>
        rw [List.getLast?_cons_cons] at hl
        split at hx
        · simp at hx
        · exact ih _ e r x hl hr hx
  unfold TN.mergeEdges at h
  rcases hc with hc | ⟨hm, e, d, d', hl, ⟨r, hr, hd⟩, ⟨r', hr', hd'⟩, hne⟩
  · rw [hdim es none hc] at h
    simp only [Prod.mk.injEq] at h; exact h.1.symm
  · cases hx : tn.mergeDim es none with
    | none => rw [hx] at h; simp only [Prod.mk.injEq] at h; exact h.1.symm
    | some x =>
      have hxd := hlast es none e r x hl hr hx
      rw [hx] at h
      simp only [Option.some_or] at h
      have hhas : tn.edges.has m = true := Dict.has_iff.2 hm
      simp only [hhas, Bool.not_true, Bool.and_false, Bool.false_eq_true, if_false] at h
      have : tn.updateDimension [(m, x)] = (tn, .error .assertion) := by
        unfold TN.updateDimension forLoop TN.updateDim1
        simp only [hr', hd', hxd, hd]
        rw [if_neg (Ne.symm hne)]
      rw [this] at h
      simp only [Prod.mk.injEq] at h; exact h.1.symm

example : ∃ (tn tn' : TN Shp) (er : Err),
    tn.mergeEdges [.str "a", .str "b"] (some (.str "a")) none = (tn', .error er) ∧
    (.str "a") ∈ tn.edges.keys ∧ ∃ e d d', [Nm.str "a", .str "b"].getLast? = some e ∧
        (∃ r, tn.edges.get? e = some r ∧ r.dim = some d) ∧
        (∃ r, tn.edges.get? (.str "a") = some r ∧ r.dim = some d') ∧ d ≠ d' :=
  ⟨{ edges := [(.str "a", { dim := some 2 }), (.str "b", { dim := some 3 })] }, _, _, rfl, by decide,
    .str "b", 3, 2, rfl, ⟨_, rfl, rfl⟩, ⟨_, rfl, rfl⟩, by decide⟩

/-- A rejected `add_node` leaves the node (without its links and tensor) and new edges behind. -/
theorem c13_add_node_violated :
    ∃ (tn tn' : TN Shp) (er : Err) (ops : List (Op Shp)), TN.run {} ops = some tn ∧
      tn.addNode (some (.int 0)) (.int 0) (some [.str "b", .str "a"]) (shp [2, 3]) false = (tn', .error er) ∧
      tn' ≠ tn ∧ (.int 0) ∈ tn'.nodes.keys ∧ (.str "b") ∈ tn'.edges.keys :=
  ⟨_, _, _, [.addEdge (some (.str "a")) (some 2)], rfl, rfl, by decide, by decide, by decide⟩

/-- A rejected `update_node` has already replaced the tensor. -/
theorem c13_update_node_violated :
    ∃ (tn tn' : TN Shp) (er : Err) (ops : List (Op Shp)), TN.run {} ops = some tn ∧
      tn.updateNode (.int 0) (shp [3]) = (tn', .error er) ∧
      tn.nodes.get? (.int 0) = some { legs := [.str "a"], ten := some (shp [2]) } ∧
      tn'.nodes.get? (.int 0) = some { legs := [.str "a"], ten := some (shp [3]) } :=
  ⟨_, _, _, [.addNode (some (.int 0)) (.int 0) (some [.str "a"]) (shp [2]) false], rfl, rfl, rfl, rfl⟩

/-- A rejected `merge_edges` can leave edges deleted that legs still refer to: merging three edges where
the fixed one has a dimension the target does not admit. -/
theorem c13_merge_edges_violated :
    ∃ (tn tn' : TN Shp) (er : Err) (ops : List (Op Shp)), TN.run {} ops = some tn ∧
      tn.mergeEdges [.str "a", .str "b", .str "c"] (some (.str "c")) none = (tn', .error er) ∧
      (.str "a") ∈ tn.edges.keys ∧ (.str "a") ∉ tn'.edges.keys :=
  ⟨_, _, _, [.addEdge (some (.str "a")) (some 2), .addEdge (some (.str "b")) (some 3),
    .fixEdge (.str "b") [2] false, .addEdge (some (.str "c")) (some 2)], rfl, rfl, by decide, by decide⟩

/-! ## C20 -/

/-- A sequence of `fix_edge` calls on one edge, without `change_fix`. -/
def fixSeq (e : Nm) (calls : List (List Nat)) (tn : TN τ) : TN τ × Except Err Unit :=
  forLoop (fun t vals => t.fixEdge e vals false) calls tn

/-- C20, first half: after any sequence of successful `fix_edge` calls the edge is restricted to the
intersection of the earlier restriction (if any) and of all the sets given; nothing else changes. -/
theorem c20_fix_intersects {tn tn' : TN τ} {e : Nm} {calls : List (List Nat)} {r : EdgeRec}
    (hr : tn.edges.get? e = some r) (h : fixSeq e calls tn = (tn', .ok ())) :
    ∃ r', tn'.edges.get? e = some r' ∧ r'.dim = r.dim ∧
      (calls ≠ [] → ∃ f, r'.fix = some f ∧
        ∀ v, v ∈ f ↔ (∀ f0, r.fix = some f0 → v ∈ f0) ∧ ∀ vals ∈ calls, v ∈ vals) ∧
      (∀ e', e' ≠ e → tn'.edges.get? e' = tn.edges.get? e') ∧
      tn'.nodes = tn.nodes ∧ tn'.adj = tn.adj ∧ tn'.openE = tn.openE := by
  unfold fixSeq at h
  induction calls generalizing tn r with
  | nil =>
    simp only [forLoop, Prod.mk.injEq, and_true] at h
    subst h
    exact ⟨r, hr, rfl, by simp, fun _ _ => rfl, rfl, rfl, rfl⟩
  | cons vals calls ih =>
    obtain ⟨t1, h1, h2⟩ := forLoop_cons_ok h
    have hstep : ∃ f, t1 = { tn with edges := tn.edges.set e { r with fix := some f } } ∧
        ∀ v, v ∈ f ↔ (∀ f0, r.fix = some f0 → v ∈ f0) ∧ v ∈ vals := by
      unfold TN.fixEdge at h1
      simp only [hr] at h1
      split at h1
      · simp at h1
      · split at h1
        · split at h1
          · next hf =>
            simp only [Prod.mk.injEq, and_true] at h1
            exact ⟨vals, h1.symm, fun v => by simp [hf]⟩
          · next old hf =>
            simp only [Bool.false_eq_true, if_false, Prod.mk.injEq, and_true] at h1
            exact ⟨old.filter (· ∈ vals), h1.symm, fun v => by simp [hf]⟩
        · simp at h1
    obtain ⟨f, ht1, hf⟩ := hstep
    subst ht1
    have hr1 : Dict.get? (tn.edges.set e { r with fix := some f }) e = some { r with fix := some f } := by
      rw [Dict.get?_set, if_pos rfl]
    obtain ⟨r', a1, a2, a3, a4, a5, a6, a7⟩ := ih hr1 h2
    refine ⟨r', a1, a2, fun _ => ?_, fun e' he' => ?_, a5, a6, a7⟩
    · by_cases hc : calls = []
      · subst hc
        simp only [forLoop, Prod.mk.injEq, and_true] at h2
        subst h2
        rw [hr1] at a1
        cases a1
        exact ⟨f, rfl, fun v => by rw [hf]; simp⟩
      · obtain ⟨f', hf', hm⟩ := a3 hc
        refine ⟨f', hf', fun v => ?_⟩
        rw [hm]
        simp only [Option.some.injEq, forall_eq', hf, List.mem_cons, forall_eq_or_imp, and_assoc]
    · rw [a4 e' he']
      show Dict.get? (Dict.set _ _ _) e' = _
      rw [Dict.get?_set, if_neg (Ne.symm he')]

example : ∃ (tn' : TN Shp), fixSeq (.str "a") [[0, 1, 2], [2, 1], [1, 3]]
    { edges := [(.str "a", { dim := some 4 })] } = (tn', .ok ()) := ⟨_, rfl⟩

/-- C20, second half: `change_fix=True` fixes the edge to exactly the given value when the edge is not
fixed yet or fixed to one value.

Full statement: the same whatever the edge was fixed to before; false, see `c20_change_fix_violated`. -/
theorem c20_change_fix_partial {tn tn' : TN τ} {e : Nm} {v : Nat} {r : EdgeRec}
    (hr : tn.edges.get? e = some r) (hone : ∀ f, r.fix = some f → f.length = 1)
    (h : tn.fixEdge e [v] true = (tn', .ok ())) :
    tn'.edges.get? e = some { r with fix := some [v] } := by
  unfold TN.fixEdge at h
  simp only [hr] at h
  split at h
  · simp at h
  · split at h
    · split at h
      · simp only [Prod.mk.injEq, and_true] at h
        subst h
        show Dict.get? (Dict.set _ _ _) e = _
        rw [Dict.get?_set, if_pos rfl]
      · next old hf =>
        have := hone old hf
        match old, this with
        | [w], _ =>
          simp only [if_true, Prod.mk.injEq, and_true] at h
          subst h
          show Dict.get? (Dict.set _ _ _) e = _
          rw [Dict.get?_set, if_pos rfl]
    · simp at h

example : ∃ (tn tn' : TN Shp) (r : EdgeRec), tn.edges.get? (.str "a") = some r ∧
    (∀ f, r.fix = some f → f.length = 1) ∧ tn.fixEdge (.str "a") [1] true = (tn', .ok ()) :=
  ⟨{ edges := [(.str "a", { dim := some 2, fix := some [0] })] }, _, _, rfl,
    by rintro f h; cases h; rfl, rfl⟩

/-- With several fixed values `change_fix=True` replaces only the first of them, and with none it raises. -/
theorem c20_change_fix_violated :
    (∃ (tn tn' : TN Shp) (ops : List (Op Shp)), TN.run {} ops = some tn ∧
      tn.fixEdge (.str "a") [2] true = (tn', .ok ()) ∧
      tn'.edges.get? (.str "a") = some { dim := some 3, fix := some [2, 1] }) ∧
    (∃ (tn tn' : TN Shp) (er : Err) (ops : List (Op Shp)), TN.run {} ops = some tn ∧
      tn.fixEdge (.str "a") [2] true = (tn', .error er)) :=
  ⟨⟨_, _, [.addEdge (some (.str "a")) (some 3), .fixEdge (.str "a") [0, 1] false], rfl, rfl, rfl⟩,
    _, _, _, [.addEdge (some (.str "a")) (some 3), .fixEdge (.str "a") [0] false,
      .fixEdge (.str "a") [1] false], rfl, rfl⟩

end Verif
