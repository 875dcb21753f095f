import Verif.Lemmas.Contract
/-!
# C01, C02, C03, C06: contraction computes the Einstein sum, for every order and every slicing
-/

set_option linter.unusedSectionVars false

namespace Verif

variable {R : Type} [CommSemiring R] [Star R] {L : Type} [AddCommMonoid L] {contract : TVal R → Option (Arr R)}
  {tn tn' : TN (TVal R)} {srt : List Nm → List Nm} {E : Engine L R} {ex : L → R} {memory : Nat}

theorem sliceOK_nil {τ : Type} {tn : TN τ} : SliceOK tn [] :=
  ⟨by simp, by simp, Or.inl (by simp)⟩

theorem Represents.same {τ : Type} [HasShape τ] {tn : TN τ} {val : τ → List Nat → R} {a b : Arr R}
    (ha : Represents val tn a) (hb : Represents val tn b) : SameArr a b := by
  have hs : a.shape = b.shape := by
    have := ha.1.symm.trans hb.1
    rw [Option.some.injEq] at this
    exact List.map_injective_iff.2 (Option.some_injective _) this
  exact ⟨hs, fun idx hi => by rw [ha.2 idx hi, hb.2 idx (hs ▸ hi)]⟩

theorem compileExec_spec {val : TVal R → List Nat → R} [ArrVal val] (hE : E.Sound ex) (hsrt : ∀ l, (srt l).Perm l) (hC : CompletableFor val contract tn)
    (hF : ClosedFixOK tn) (hd : tn.completeDelta = (tn', .ok ())) {p : Plan} (hS : SchemeOK tn' p.order memory p.width)
    (hsl : SliceOK tn' p.slices) :
    ∃ r, tn.compileExec contract memory srt E ex p = .ok r ∧ Represents val tn r := by
  obtain ⟨tn2, h1, h2, _, h4, h5, h6, h7, h8, h9, _⟩ := hC.complete
  rw [hd, Prod.mk.injEq] at h1
  obtain ⟨rfl, _⟩ := h1
  obtain ⟨r, hr, hv1, hv2⟩ := compileRun_spec hE hsrt ⟨h2, h5, h4, h9 hF, hsl⟩ hS h8
  refine ⟨r, ?_, by rw [← h7]; exact hv1, fun idx hi => by rw [hv2 idx hi, h6]⟩
  unfold TN.compileExec
  rw [hd]
  exact hr

/-- C01: `contract` returns the Einstein sum of the network (with the shape of the network): repeated open edges,
open edges touching no node, hyperedges, repeated legs, fixed edges included, whatever (valid) scheme the order
finder comes up with.  Partial: closed fixed edges must be fixed to one value, and names must not clash with those
`complete_delta` introduces (see `c06_two_values_violated`, `c44_edge_clash_violated`, `c44_star_node_violated`). -/
theorem c01_contract_partial (hE : E.Sound ex) (hsrt : ∀ l, (srt l).Perm l) (hC : Completable contract tn)
    (hF : ClosedFixOK tn) {finder : TN (TVal R) → Option Plan}
    (hfind : ∀ tn', tn.completeDelta = (tn', .ok ()) →
      ∃ p, finder tn' = some p ∧ SchemeOK tn' p.order memory p.width ∧ SliceOK tn' p.slices) :
    ∃ r, tn.contractWith contract memory finder srt E ex = .ok r ∧ Represents TVal.val tn r := by
  obtain ⟨tn', hd, _⟩ := hC.complete
  obtain ⟨p, hp, hS, hsl⟩ := hfind tn' hd
  obtain ⟨r, hr, hv⟩ := compileExec_spec hE hsrt hC hF hd hS hsl
  refine ⟨r, ?_, hv⟩
  unfold TN.contractWith
  rw [hd]
  dsimp only
  rw [hp]
  exact hr

/-- C01 for `contract()` with the default order finder: no assumption on the scheme is left, except that the
computed width does not exceed the memory limit.  Partial: as `c01_contract_partial`, and no node may be called
`'#'` or `('#', i)`. -/
theorem c01_default_partial (hE : E.Sound ex) (hsrt : ∀ l, (srt l).Perm l) (hC : Completable contract tn)
    (hF : ClosedFixOK tn) (h1 : .str "#" ∉ tn.nodes.keys) (h2 : ∀ j, Nm.pair (.str "#") (.int j) ∉ tn.nodes.keys)
    {width : TN (TVal R) → List OrderStep → Nat} (hw : ∀ t o, width t o * 3 * 2 ^ 4 ≤ memory * 2 ^ 30) :
    ∃ r, tn.contractWith contract memory (defaultFinder srt width) srt E ex = .ok r ∧ Represents TVal.val tn r := by
  refine c01_contract_partial hE hsrt hC hF fun tn' hd => ⟨_, rfl, ⟨?_, hw _ _⟩, sliceOK_nil⟩
  obtain ⟨tn2, h3, h4, _, _, _, _, _, _, _, h5, _⟩ := hC.complete
  rw [hd, Prod.mk.injEq] at h3
  obtain ⟨rfl, _⟩ := h3
  refine defaultOrder_ok h4 hsrt (fun hc => ?_) (fun j hc => ?_)
  · rcases h5 _ hc with h | h | ⟨e, k, h⟩
    · exact h1 h
    · simp at h
    · simp [deltaNode, Nm.triple] at h
  · rcases h5 _ hc with h | h | ⟨e, k, h⟩
    · exact h2 j h
    · simp [Nm.pair] at h
    · simp [deltaNode, Nm.triple, Nm.pair] at h

/-- C02: two valid pairwise orders give the same array, namely the Einstein sum.  Partial: as
`c01_contract_partial`. -/
theorem c02_order_partial (hE : E.Sound ex) (hsrt : ∀ l, (srt l).Perm l) (hC : Completable contract tn)
    (hF : ClosedFixOK tn) (hd : tn.completeDelta = (tn', .ok ())) {split : List Nm} (hsl : SliceOK tn' split)
    {o₁ o₂ : List OrderStep} {w₁ w₂ : Nat} (h₁ : SchemeOK tn' o₁ memory w₁) (h₂ : SchemeOK tn' o₂ memory w₂) :
    ∃ r₁ r₂, tn.compileExec contract memory srt E ex ⟨w₁, o₁, split⟩ = .ok r₁ ∧
      tn.compileExec contract memory srt E ex ⟨w₂, o₂, split⟩ = .ok r₂ ∧ SameArr r₁ r₂ ∧ Represents TVal.val tn r₁ := by
  obtain ⟨r₁, h3, h4⟩ := compileExec_spec (p := ⟨w₁, o₁, split⟩) hE hsrt hC hF hd h₁ hsl
  obtain ⟨r₂, h5, h6⟩ := compileExec_spec (p := ⟨w₂, o₂, split⟩) hE hsrt hC hF hd h₂ hsl
  exact ⟨r₁, r₂, h3, h5, h4.same h6, h4⟩

/-- C03: a scheme with sliced edges gives the same array as the scheme without.  Partial: as
`c01_contract_partial`; and the sliced edges must be attached and unfixed, and if some are open then not all sliced
edges have dimension one (`SliceOK`; see the `c03_..._violated` theorems). -/
theorem c03_slicing_partial (hE : E.Sound ex) (hsrt : ∀ l, (srt l).Perm l) (hC : Completable contract tn)
    (hF : ClosedFixOK tn) (hd : tn.completeDelta = (tn', .ok ())) {o : List OrderStep} {w : Nat}
    (hS : SchemeOK tn' o memory w) {split : List Nm} (hsl : SliceOK tn' split) :
    ∃ r₁ r₂, tn.compileExec contract memory srt E ex ⟨w, o, split⟩ = .ok r₁ ∧
      tn.compileExec contract memory srt E ex ⟨w, o, []⟩ = .ok r₂ ∧ SameArr r₁ r₂ := by
  obtain ⟨r₁, h3, h4⟩ := compileExec_spec (p := ⟨w, o, split⟩) hE hsrt hC hF hd hS hsl
  obtain ⟨r₂, h5, h6⟩ := compileExec_spec (p := ⟨w, o, []⟩) hE hsrt hC hF hd hS sliceOK_nil
  exact ⟨r₁, r₂, h3, h5, h4.same h6⟩

/-- C06, one value: `contract` sums over the single value the closed edge is fixed to: it gives the slice
`value` of the network in which that edge ranges over the value alone. -/
theorem c06_one_value_partial (hE : E.Sound ex) (hsrt : ∀ l, (srt l).Perm l) (hC : Completable contract tn)
    (hF : ClosedFixOK tn) (hd : tn.completeDelta = (tn', .ok ())) {p : Plan} (hS : SchemeOK tn' p.order memory p.width)
    (hsl : SliceOK tn' p.slices) {e : Nm} {er : EdgeRec} {v : Nat} (he : tn.edges.get? e = some er)
    (hv : er.fix = some [v]) :
    ∃ r, tn.compileExec contract memory srt E ex p = .ok r ∧ tn.shape? = some (r.shape.map some) ∧
      ∀ idx, InRange r.shape idx →
        r.get idx = einsum (fun x => if x = e then {v} else tn.dom x) (tn.factors TVal.val) tn.openE idx := by
  obtain ⟨r, h1, h2, h3⟩ := compileExec_spec hE hsrt hC hF hd hS hsl
  refine ⟨r, h1, h2, fun idx hi => ?_⟩
  rw [h3 idx hi]
  refine einsum_dom_congr fun x _ => ?_
  split
  · next hx =>
    unfold TN.dom EdgeRec.dom
    rw [hx, he]
    dsimp only
    rw [hv]
    rfl
  · rfl

/-- C06, no value: a closed attached edge fixed to the empty set makes every entry of the result zero, as it is in
the Einstein sum (whatever the other edges are fixed to). -/
theorem c06_empty (hsrt : ∀ l, (srt l).Perm l) (hC : Completable contract tn) {p : Plan}
    (hmem : p.width * 3 * 2 ^ 4 ≤ memory * 2 ^ 30) {e : Nm} {er : EdgeRec} (he : tn.edges.get? e = some er)
    (hno : e ∉ tn.openE) (hat : tn.Attached e) (hv : er.fix = some []) :
    ∃ r, tn.compileExec contract memory srt E ex p = .ok r ∧ Represents TVal.val tn r ∧ ∀ idx, r.get idx = 0 := by
  obtain ⟨tn2, hd, h2, _, h4, h5, h6, h7, h8, _, _, h10⟩ := hC.complete
  obtain ⟨r2, hr2, hf2⟩ := h10 e er he hno
  obtain ⟨r, h1, hsh, h0⟩ := compileRun_empty (p := p) (E := E) (ex := ex) hsrt h4 h2 hmem h8 hr2 (by rw [hf2, hv])
  refine ⟨r, ?_, ⟨?_, fun idx _ => ?_⟩, h0⟩
  · unfold TN.compileExec
    rw [hd]
    exact h1
  · rw [← h7, shape_dims h4, hsh]
  · rw [h0, value_empty hC.cons he hv (Or.inl hat)]

/-! ## Concrete cases -/

/-- Plain execution: indices of intermediates as they come, no normalisation. -/
def plainEngine : Engine Nat R := ⟨id, none⟩

theorem plainEngine_sound : (plainEngine : Engine Nat R).Sound fun _ => 1 :=
  ⟨fun _ => List.Perm.refl _, rfl, fun _ _ _ _ h => by simp [plainEngine] at h, fun _ _ h => by simp [plainEngine] at h⟩

theorem arrContract_ok (a : Arr R) : Contracts arrContract TVal.val (.ten (some a)) := by
  intro sh hsh
  rw [TVal.shape_def, TVal.shape, Option.some.injEq] at hsh
  have hsh := List.map_injective_iff.2 (Option.some_injective _) hsh
  exact ⟨a, rfl, hsh, fun idx _ => by rw [TVal.val]⟩

/-- All nodes hold arrays. -/
def TN.arraysB (tn : TN (TVal R)) : Bool :=
  tn.nodes.all fun p => match p.2.ten with | some (.ten (some _)) => true | _ => false

theorem tens_of_arraysB (h : tn.arraysB = true) :
    ∀ n r t, tn.nodes.get? n = some r → r.ten = some t → Contracts arrContract TVal.val t := by
  intro n r t hg ht
  have := List.all_eq_true.1 h _ (Dict.mem_of_get? hg)
  dsimp only at this
  rw [ht] at this
  match t, this with
  | .ten (some a), _ => exact arrContract_ok a

/-- A checkable form of `ClosedFixOK`. -/
def TN.closedFixB {τ : Type} (tn : TN τ) : Bool :=
  tn.edges.all fun p => tn.openE.contains p.1 || match p.2.fix, p.2.dim with
    | none, _ => true
    | some [v], some d => decide (v < d)
    | _, _ => false

theorem closedFix_of_B {τ : Type} {tn : TN τ} (h : tn.closedFixB = true) : ClosedFixOK tn := by
  intro e r l he hno hl
  have := List.all_eq_true.1 h _ (Dict.mem_of_get? he)
  rw [Bool.or_eq_true, List.contains_iff_mem] at this
  have := this.resolve_left hno
  dsimp only at this
  rw [hl] at this
  match l, hd : r.dim, this with
  | [v], some d, h => exact ⟨v, d, rfl, rfl, by simpa using h⟩
  | [], _, h => simp at h
  | _ :: _ :: _, _, h => simp at h

/-- Three tensors: a matrix on "a", "b", a tensor on "b", "c", "f" and a tensor with a repeated leg "c"; "a" is open
twice and fixed to {1}, "c" (a hyperedge) is open, "z" is open without node, "f" is closed and fixed to {1}. -/
def contractExample : List (Op (TVal Nat)) :=
  [.addNode (some (.int 0)) (.int 0) (some [.str "a", .str "b"]) (arrVal [2, 3] fun i => i.sum + 1) false,
   .addNode (some (.int 1)) (.int 1) (some [.str "b", .str "c", .str "f"]) (arrVal [3, 2, 2] fun i => i.sum) false,
   .addNode (some (.int 2)) (.int 2) (some [.str "c", .str "c"]) (arrVal [2, 2] fun i => i.sum + 2) false,
   .openEdge (.str "a") none, .openEdge (.str "c") none, .openEdge (.str "a") none,
   .openEdge (.str "z") (some 2), .fixEdge (.str "a") [1] false, .fixEdge (.str "f") [1] false]

theorem contractExample_ok : ∃ tn : TN (TVal Nat), TN.run {} contractExample = some tn ∧
    Completable arrContract tn ∧ ClosedFixOK tn ∧ .str "#" ∉ tn.nodes.keys ∧
    (∀ j, Nm.pair (.str "#") (.int j) ∉ tn.nodes.keys) ∧ tn.nodes.length = 3 := by
  have hc : TN.Consistent _ := c11_consistent_partial (ops := contractExample)
    ⟨trivial, trivial, trivial, trivial, trivial, trivial, trivial, trivial, trivial, trivial⟩ rfl
  refine ⟨_, rfl, ⟨hc, TN.dimsKnown_of_B hc rfl, TN.ready_of_readyB rfl, ?_, ?_, by decide,
    tens_of_arraysB rfl, fun _ => rfl⟩, closedFix_of_B rfl, by decide, ?_, rfl⟩
  · intro e he k hk hcon
    have h3 : deltaEdge e k ∈ [Nm.str "a", .str "b", .str "c", .str "f", .str "z"] := hcon
    simp [deltaEdge, Nm.pair] at h3
  · intro e he k hcon
    have h3 : deltaNode e k ∈ [Nm.int 0, .int 1, .int 2] := hcon
    simp [deltaNode, Nm.triple] at h3
  · intro j hcon
    have h3 : Nm.pair (.str "#") (.int j) ∈ [Nm.int 0, .int 1, .int 2] := hcon
    simp [Nm.pair] at h3

/-- `c01_default_partial` applies to the example; one entry of the result. -/
example : ∃ (tn : TN (TVal Nat)) (r : Arr Nat), TN.run {} contractExample = some tn ∧
    tn.contractWith arrContract 16 (defaultFinder id fun _ _ => 0) id plainEngine (fun _ => 1) = .ok r ∧
    Represents TVal.val tn r ∧ r.shape = [2, 2, 2, 2] := by
  obtain ⟨tn, h0, h1, h2, h3, h4, _⟩ := contractExample_ok
  obtain ⟨r, h5, h6⟩ := c01_default_partial plainEngine_sound (srt := id) (fun l => List.Perm.refl l) h1 h2 h3 h4
    (memory := 16) (width := fun _ _ => 0) (by intros; omega)
  refine ⟨tn, r, h0, h5, h6, ?_⟩
  have h7 := h6.1
  have h8 : tn.shape? = some ([2, 2, 2, 2].map some) := by
    have : TN.run {} contractExample = some tn := h0
    cases this
    rfl
  rw [h8, Option.some.injEq] at h7
  exact (List.map_injective_iff.2 (Option.some_injective _) h7).symm

/-- The hypotheses of `c02_order_partial` and `c03_slicing_partial` are met with two different orders and a slicing of
a closed edge together with an open hyperedge. -/
example : ∃ (tn tn' : TN (TVal Nat)), TN.run {} contractExample = some tn ∧ Completable arrContract tn ∧ ClosedFixOK tn ∧
    tn.completeDelta = (tn', .ok ()) ∧ SliceOK tn' [.str "b", .str "c"] ∧
    SchemeOK tn' (defaultOrder tn'.nodes.keys) 16 7 ∧ SchemeOK tn' (defaultOrder tn'.nodes.keys.reverse) 16 9 ∧
    defaultOrder tn'.nodes.keys ≠ defaultOrder tn'.nodes.keys.reverse := by
  obtain ⟨tn, h0, h1, h2, h3, h4, _⟩ := contractExample_ok
  obtain ⟨tn', hd, hc, _, _, _, _, _, _, _, h5, _⟩ := h1.complete
  have h6 : .str "#" ∉ tn'.nodes.keys := fun hc => by
    rcases h5 _ hc with h | h | ⟨e, k, h⟩
    · exact h3 h
    · simp at h
    · simp [deltaNode, Nm.triple] at h
  have h7 : ∀ j, Nm.pair (.str "#") (.int j) ∉ tn'.nodes.keys := fun j hc => by
    rcases h5 _ hc with h | h | ⟨e, k, h⟩
    · exact h4 j h
    · simp [Nm.pair] at h
    · simp [deltaNode, Nm.triple, Nm.pair] at h
  refine ⟨tn, tn', h0, h1, h2, hd, ?_, ⟨defaultOrder_ok hc (srt := id) (fun l => List.Perm.refl l) h6 h7, by omega⟩,
    ⟨defaultOrder_ok hc (srt := List.reverse) (fun l => List.reverse_perm l) h6 h7, by omega⟩, ?_⟩
  · have : TN.run {} contractExample = some tn := h0
    cases this
    cases hd
    refine ⟨?_, ?_, ?_⟩
    · intro e he
      simp only [List.mem_cons, List.not_mem_nil, or_false] at he
      rcases he with rfl | rfl
      · exact ⟨3, rfl, by omega⟩
      · exact ⟨2, rfl, by omega⟩
    · intro e he
      simp only [List.mem_cons, List.not_mem_nil, or_false] at he
      rcases he with rfl | rfl
      · exact ⟨.int 0, _, rfl, by decide⟩
      · exact ⟨.int 1, _, rfl, by decide⟩
    · exact Or.inr ⟨.str "b", by simp, by decide⟩
  · have : TN.run {} contractExample = some tn := h0
    cases this
    cases hd
    decide

/-- A closed edge fixed to the empty set. -/
example : ∃ (tn : TN (TVal Nat)) (er : EdgeRec),
    TN.run {} [.addNode (some (.int 0)) (.int 0) (some [.str "a", .str "b"]) (arrVal [2, 3] fun i => i.sum + 1) false,
      .openEdge (.str "a") none, .fixEdge (.str "b") [] false] = some tn ∧
    Completable arrContract tn ∧ tn.edges.get? (.str "b") = some er ∧ .str "b" ∉ tn.openE ∧ tn.Attached (.str "b") ∧
    er.fix = some [] := by
  have hc : TN.Consistent _ := c11_consistent_partial
    (ops := [.addNode (some (.int 0)) (.int 0) (some [.str "a", .str "b"]) (arrVal [2, 3] fun i => i.sum + 1) false,
      .openEdge (.str "a") none, .fixEdge (.str "b") [] false]) ⟨trivial, trivial, trivial, trivial⟩ rfl
  refine ⟨_, _, rfl, ⟨hc, TN.dimsKnown_of_B hc rfl, TN.ready_of_readyB rfl, ?_, ?_, by decide,
    tens_of_arraysB rfl, fun _ => rfl⟩, rfl, by decide, ⟨.int 0, _, rfl, by decide⟩, rfl⟩
  · intro e he k hk hcon
    have h3 : deltaEdge e k ∈ [Nm.str "a", .str "b"] := hcon
    simp [deltaEdge, Nm.pair] at h3
  · intro e he k hcon
    have h3 : deltaNode e k ∈ [Nm.int 0] := hcon
    simp [deltaNode, Nm.triple] at h3

/-! ## What the code gets wrong -/

/-- A vector on the closed edge "a". -/
def vecOps : List (Op (TVal Nat)) :=
  [.addNode (some (.int 0)) (.int 0) (some [.str "a"]) (arrVal [3] fun i => i.sum + 1) false]

/-- Running a scheme with the plain engine. -/
def plainRun (tn : TN (TVal Nat)) (p : Plan) : Except Err (Arr Nat) :=
  tn.compileExec arrContract 16 id plainEngine (fun _ => 1) p

/-- C06 fails for two values: the entries are 1, 2, 3, the edge is fixed to {0, 2}; the sum over the set is 4,
`contract` returns two times the entry at 0. -/
theorem c06_two_values_violated : ∃ (tn : TN (TVal Nat)) (r : Arr Nat),
    TN.run {} (vecOps ++ [.fixEdge (.str "a") [0, 2] false]) = some tn ∧ plainRun tn ⟨0, [], []⟩ = .ok r ∧
    (TVal.ofTN tn).val [] = 4 ∧ r.get [] = 2 :=
  ⟨_, _, rfl, rfl, by decide, by decide⟩

/-- C03 fails for a sliced edge that touches no node: every sub-task computes the whole sum. -/
theorem c03_dangling_violated : ∃ (tn : TN (TVal Nat)) (r₁ r₂ : Arr Nat),
    TN.run {} (vecOps ++ [.addEdge (some (.str "q")) (some 2)]) = some tn ∧
    plainRun tn ⟨0, [], []⟩ = .ok r₁ ∧ plainRun tn ⟨0, [], [.str "q"]⟩ = .ok r₂ ∧ r₁.get [] = 6 ∧ r₂.get [] = 12 :=
  ⟨_, _, _, rfl, rfl, rfl, by decide, by decide⟩

/-- C03 fails for a sliced edge that is also fixed: every sub-task computes the fixed entry. -/
theorem c03_fixed_violated : ∃ (tn : TN (TVal Nat)) (r₁ r₂ : Arr Nat),
    TN.run {} (vecOps ++ [.fixEdge (.str "a") [1] false]) = some tn ∧
    plainRun tn ⟨0, [], []⟩ = .ok r₁ ∧ plainRun tn ⟨0, [], [.str "a"]⟩ = .ok r₂ ∧ r₁.get [] = 2 ∧ r₂.get [] = 6 :=
  ⟨_, _, _, rfl, rfl, rfl, by decide, by decide⟩

/-- C03 fails when all sliced edges have dimension one and one of them is open: the merge step returns the only
sub-result, which lacks the sliced axis. -/
theorem c03_unit_open_violated : ∃ (tn : TN (TVal Nat)) (r₁ r₂ : Arr Nat),
    TN.run {} [.addNode (some (.int 0)) (.int 0) (some [.str "a"]) (arrVal [1] fun _ => 1) false,
      .openEdge (.str "a") none] = some tn ∧
    plainRun tn ⟨0, [], []⟩ = .ok r₁ ∧ plainRun tn ⟨0, [], [.str "a"]⟩ = .ok r₂ ∧ r₁.shape = [1] ∧ r₂.shape = [] :=
  ⟨_, _, _, rfl, rfl, rfl, rfl, rfl⟩

end Verif
