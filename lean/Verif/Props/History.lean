import Verif.Lemmas.Consistent
import Verif.Base.Shp
/-! # C11: structural consistency after any edit history -/

namespace Verif

variable {τ : Type}

/-- The automatically chosen node names of a history are not in use when they are chosen
(`TensorValued.identifier` is a running number, so this excludes adding the same tensor object twice
without a name, and integer node names chosen by the user that coincide with it). -/
def FreshOp (tn : TN τ) : Op τ → Prop
  | .addNode none ident _ _ _ => ident ∉ tn.nodes.keys
  | .encapsulate _ _ none ident => ident ∉ tn.nodes.keys
  | _ => True

/-- `FreshOp` along a history. -/
def FreshIdents [NetTensor τ] : TN τ → List (Op τ) → Prop
  | _, [] => True
  | tn, op :: ops => FreshOp tn op ∧ FreshIdents (tn.step op).1 ops

/-- C11, one edit. -/
theorem c11_step [NetTensor τ] {tn tn' : TN τ} {op : Op τ} (h : tn.Consistent)
    (hf : FreshOp tn op) (hok : tn.step op = (tn', .ok ())) : tn'.Consistent := by
  have hunit : ∀ {α : Type} {r : Res τ α}, r.unit = (tn', .ok ()) → ∃ x, r = (tn', .ok x) := by
    intro α r hr
    obtain ⟨t, o⟩ := r
    cases o with
    | error e => simp [Res.unit] at hr
    | ok x => simp [Res.unit] at hr; exact ⟨x, by rw [hr]⟩
  cases op with
  | addNode name ident edges t isOpen =>
    obtain ⟨n, hn⟩ := hunit hok
    refine h.addNode ?_ hn
    rintro rfl
    exact hf
  | popNode n => obtain ⟨r, hr⟩ := hunit hok; have := h.popNode n; rw [hr] at this; exact this
  | removeNode n => obtain ⟨r, hr⟩ := hunit hok; have := h.removeNode n; rw [hr] at this; exact this
  | updateNode n t => have := h.updateNode n t; rw [show tn.updateNode n t = _ from hok] at this; exact this
  | addEdge name dim => obtain ⟨r, hr⟩ := hunit hok; have := h.addEdge name dim; rw [hr] at this; exact this
  | openEdge e dim => have := h.openEdge e dim; rw [show tn.openEdge e dim = _ from hok] at this; exact this
  | closeEdge e =>
    have hok : (tn.closeEdge e, Except.ok ()) = (tn', .ok ()) := hok
    simp only [Prod.mk.injEq, and_true] at hok
    rw [← hok]; exact h.closeEdge e
  | fixEdge e vals cf => have := h.fixEdge e vals cf; rw [show tn.fixEdge e vals cf = _ from hok] at this; exact this
  | fixIndex i v => have := h.fixIndex i v; rw [show tn.fixIndex i v = _ from hok] at this; exact this
  | fix =>
    have hok : (tn.fixAll, Except.ok ()) = (tn', .ok ()) := hok
    simp only [Prod.mk.injEq, and_true] at hok
    rw [← hok]; exact h.fixAll
  | mergeEdges es m d => obtain ⟨r, hr⟩ := hunit hok; exact h.mergeEdges hr
  | rewire n leg dest => exact h.rewire hok
  | encapsulate ns opn name ident =>
    obtain ⟨n, hn⟩ := hunit hok
    refine h.encapsulate ?_ hn
    rintro rfl
    exact hf

/-- C11 from any consistent state. -/
theorem c11_run [NetTensor τ] {tn tn' : TN τ} {ops : List (Op τ)} (h : tn.Consistent)
    (hf : FreshIdents tn ops) (hrun : tn.run ops = some tn') : tn'.Consistent := by
  induction ops generalizing tn with
  | nil => simp only [TN.run, Option.some.injEq] at hrun; exact hrun ▸ h
  | cons op ops ih =>
    unfold TN.run at hrun
    have hs := fun t (ht : tn.step op = (t, .ok ())) => c11_step h hf.1 ht
    have hf2 := hf.2
    revert hrun hs hf2
    generalize tn.step op = res
    obtain ⟨t, o⟩ := res
    intro hrun hs hf2
    cases o with
    | error e => simp at hrun
    | ok u => exact ih (hs t rfl) hf2 hrun

/-- C11: after any history of successful edits of an empty network, every leg and every open edge names an
existing edge and the incidence graph links each node to exactly the edges on its legs.

Full statement: the same without `FreshIdents`; that is false, see `c11_auto_name_violated`. -/
theorem c11_consistent_partial [NetTensor τ] {tn : TN τ} {ops : List (Op τ)}
    (hf : FreshIdents ({} : TN τ) ops) (hrun : TN.run {} ops = some tn) : tn.Consistent :=
  c11_run TN.Consistent.empty hf hrun

/-- A history meeting the hypotheses: two nodes, a shared edge, an opened edge, a fix, a merge, a rewire, an
encapsulation and a removal, with automatic and explicit names. -/
def historyExample : List (Op Shp) :=
  [.addNode (some (.str "A")) (.int 0) (some [.str "a", .str "b", .str "a"]) (shp [2, 3, 2]) true,
   .addNode none (.int 1) (some [.str "b", .str "c"]) (shp [3, 2]) false,
   .addNode none (.int 2) none (shp [2, 3]) false,
   .openEdge (.str "z") (some 5),
   .fixEdge (.str "c") [1] false,
   .mergeEdges [.str "a", .int 0] (some (.str "m")) none,
   .rewire (.int 1) 0 none,
   .closeEdge (.str "z"),
   .encapsulate [.int 1, .int 2] [.str "m"] none (.int 3),
   .removeNode (.str "A"),
   .fix]

instance (tn : TN Shp) (op : Op Shp) : Decidable (FreshOp tn op) := by
  unfold FreshOp; split <;> infer_instance

instance decFresh : (tn : TN Shp) → (ops : List (Op Shp)) → Decidable (FreshIdents tn ops)
  | _, [] => isTrue trivial
  | tn, op :: ops =>
    have : Decidable (FreshIdents (tn.step op).1 ops) := decFresh _ _
    inferInstanceAs (Decidable (_ ∧ _))

example : ∃ tn, FreshIdents ({} : TN Shp) historyExample ∧ TN.run {} historyExample = some tn := by
  refine ⟨(TN.run {} historyExample).get (by decide), by decide, by simp⟩

/-- The automatic name of a node can coincide with a node added before under an explicit name; the old
node is overwritten although its links stay in the incidence graph: the result is not consistent. -/
theorem c11_auto_name_violated :
    ∃ (ops : List (Op Shp)) (tn : TN Shp), TN.run {} ops = some tn ∧ ¬ tn.Consistent := by
  refine ⟨[.addNode (some (.int 1)) (.int 0) (some [.str "a"]) (shp [2]) false,
    .addNode none (.int 1) (some [.str "b"]) (shp [2]) false],
    { nodes := [(.int 1, { legs := [.str "b"], ten := some (shp [2]) })],
      edges := [(.str "a", { dim := some 2 }), (.str "b", { dim := some 2 })],
      adj := [(.int 1, .str "a"), (.int 1, .str "b")] }, by decide, fun h => ?_⟩
  have := (h.adj_iff (.int 1) (.str "a")).1 (by decide)
  simp [Dict.get?] at this

end Verif
