import Verif.Model.Patch
import Verif.Lemmas.Execute
import Verif.Lemmas.Value
import Verif.Spec.Contract
/-! # Helper lemmas: compiling, and the sum over all sub-tasks -/

set_option linter.unusedSectionVars false

namespace Verif

variable {R : Type} [CommSemiring R] {L : Type} [AddCommMonoid L] {τ : Type} [HasShape τ]

theorem TN.NodeReady.legs_dims {tn : TN τ} {r : NodeRec τ} (h : tn.NodeReady r) :
    ∃ t, r.ten = some t ∧ HasShape.shape t = some ((r.legs.map tn.dimOf).map some) := by
  obtain ⟨t, sh, ht, hs, hl, hd⟩ := h
  refine ⟨t, ht, ?_⟩
  rw [hs]
  congr 2
  refine List.ext_getElem? fun i => ?_
  rw [List.getElem?_map]
  cases hi : r.legs[i]? with
  | none =>
    rw [List.getElem?_eq_none_iff] at hi
    exact List.getElem?_eq_none_iff.2 (by omega)
  | some e =>
    obtain ⟨er, he, hdim⟩ := hd i e hi
    have hlt : i < sh.length := by rw [hl]; exact (List.getElem?_eq_some_iff.1 hi).1
    rw [Option.map_some]
    unfold TN.dimOf
    rw [he, Option.bind_some, hdim, List.getElem?_eq_getElem hlt]
    rfl

/-- The list of fixed and sliced edges with their values. -/
def TN.plan (tn : TN τ) (split : List Nm) : List (Nm × List Nat × Nat) :=
  fixedEntries tn.edges ++ sliceEntries split (tn.pruned split).edges

/-- The fixed edges. -/
def TN.fixedE (tn : TN τ) : List Nm := (fixedEntries tn.edges).map Prod.fst

/-- The sliced edges in the order of the network. -/
def TN.slicedE (tn : TN τ) (split : List Nm) : List Nm := (sliceEntries split (tn.pruned split).edges).map Prod.fst

section
variable {tn : TN τ} {split : List Nm}

theorem mem_slicedE (hc : tn.Consistent) (hcan : tn.Canonical) (hs : SliceOK tn split) {e : Nm} :
    e ∈ tn.slicedE split ↔ e ∈ split := by
  obtain ⟨_, _, _, _, hp5⟩ := TN.pruned_spec hc hs hcan.unfixed
  unfold TN.slicedE
  rw [List.mem_map]
  constructor
  · rintro ⟨x, hx, rfl⟩
    exact (mem_sliceEntries.1 hx).choose_spec.2.1
  · intro he
    obtain ⟨d, hd, _⟩ := hs.ok e he
    exact ⟨(e, List.range d, 0), mem_sliceEntries.2
      ⟨_, Dict.mem_of_get? (hp5 e _ hd rfl (Or.inr (Or.inr he))), he, rfl⟩, rfl⟩

theorem mem_fixedE (hc : tn.Consistent) (hf : FixOK tn) {e : Nm} :
    e ∈ tn.fixedE ↔ ∃ d v, tn.edges.get? e = some ⟨some d, some [v]⟩ ∧ v < d := by
  unfold TN.fixedE
  rw [List.mem_map]
  constructor
  · rintro ⟨x, hx, rfl⟩
    obtain ⟨d, v, hm, _⟩ := mem_fixedEntries.1 hx
    have hg := Dict.get?_of_mem hc.edges_nodup hm
    obtain ⟨v', d', h1, h2, h3⟩ := hf _ _ _ hg rfl
    dsimp only at h2
    simp only [List.cons.injEq, and_true] at h1
    subst h1 h2
    exact ⟨d', v, hg, h3⟩
  · rintro ⟨d, v, hg, _⟩
    exact ⟨(e, [v], v), mem_fixedEntries.2 ⟨_, v, Dict.mem_of_get? hg, rfl⟩, rfl⟩

theorem plan_edges : (tn.plan split).map Prod.fst = tn.fixedE ++ tn.slicedE split := List.map_append

theorem plan_nodup (hc : tn.Consistent) (hcan : tn.Canonical) (hf : FixOK tn) (hs : SliceOK tn split) :
    (tn.fixedE ++ tn.slicedE split).Nodup := by
  obtain ⟨_, _, hp3, _, _⟩ := TN.pruned_spec hc hs hcan.unfixed
  refine List.Nodup.append (fixedEntries_nodup hc.edges_nodup) (sliceEntries_nodup hp3.edges_nodup) fun e h1 h2 => ?_
  obtain ⟨d, v, hg, _⟩ := (mem_fixedE hc hf).1 h1
  obtain ⟨d', hd, _⟩ := hs.ok e ((mem_slicedE hc hcan hs).1 h2)
  rw [hd] at hg
  simp at hg

/-- The values listed for an edge of the plan. -/
theorem plan_vals (hc : tn.Consistent) (hcan : tn.Canonical) (hf : FixOK tn) (hs : SliceOK tn split)
    {x : Nm × List Nat × Nat} (hx : x ∈ tn.plan split) :
    (x.1 ∈ tn.fixedE ∧ ∃ d v, tn.edges.get? x.1 = some ⟨some d, some [v]⟩ ∧ v < d ∧ x.2 = ([v], v)) ∨
    (x.1 ∈ split ∧ ∃ d, tn.edges.get? x.1 = some ⟨some d, none⟩ ∧ 0 < d ∧ x.2 = (List.range d, 0)) := by
  obtain ⟨_, _, hp3, hp4, _⟩ := TN.pruned_spec hc hs hcan.unfixed
  rcases List.mem_append.1 hx with h | h
  · left
    have hm : x.1 ∈ tn.fixedE := List.mem_map_of_mem h
    refine ⟨hm, ?_⟩
    obtain ⟨d, v, hm', heq⟩ := mem_fixedEntries.1 h
    obtain ⟨d', v', hg, hlt⟩ := (mem_fixedE hc hf).1 hm
    have hg' := Dict.get?_of_mem hc.edges_nodup hm'
    rw [hg] at hg'
    simp only [Option.some.injEq, EdgeRec.mk.injEq, List.cons.injEq, and_true] at hg'
    obtain ⟨_, rfl⟩ := hg'
    exact ⟨d', v', hg, hlt, heq⟩
  · right
    obtain ⟨r, hm, hsp, heq⟩ := mem_sliceEntries.1 h
    refine ⟨hsp, ?_⟩
    obtain ⟨d, hd, hpos⟩ := hs.ok _ hsp
    have hg := Dict.get?_of_mem hc.edges_nodup (hp4 _ hm).1
    rw [hd] at hg
    cases hg
    exact ⟨d, hd, hpos, heq⟩

theorem dom_of_unfixed {e : Nm} (h : tn.isFixed e = false) (he : e ∈ tn.edges.keys) :
    tn.dom e = Finset.range (tn.dimOf e) := by
  obtain ⟨r, hr⟩ := Dict.exists_get? he
  unfold TN.isFixed at h
  unfold TN.dom TN.dimOf EdgeRec.dom
  rw [hr] at h ⊢
  simp only [Option.isSome_eq_false_iff, Option.isNone_iff_eq_none] at h
  dsimp only [Option.bind_some]
  rw [h]

theorem dom_lt (hf : FixOK tn) {e : Nm} {v : Nat} (h : v ∈ tn.dom e) : v < tn.dimOf e := by
  unfold TN.dom at h
  unfold TN.dimOf
  cases hr : tn.edges.get? e with
  | none => rw [hr] at h; simp at h
  | some r =>
    rw [hr] at h
    dsimp only [Option.bind_some] at h ⊢
    unfold EdgeRec.dom at h
    cases hfx : r.fix with
    | none => rw [hfx] at h; simpa using h
    | some l =>
      rw [hfx] at h
      obtain ⟨v', d, rfl, hd, hlt⟩ := hf e r l hr hfx
      rw [hd]
      simp only [List.toFinset_cons, List.toFinset_nil, insert_empty_eq, Finset.mem_singleton] at h
      subst h
      exact hlt

theorem mem_arm_legs (hc : tn.Consistent) {arr : Nm → Arr R} {e : Nm} :
    (∃ f ∈ armFactors tn.nodeLegs arr, e ∈ f.legs) ↔ ∃ n r, tn.nodes.get? n = some r ∧ e ∈ r.legs := by
  constructor
  · rintro ⟨f, hf', he⟩
    obtain ⟨q, hq, rfl⟩ := List.mem_map.1 hf'
    obtain ⟨p, hp, rfl⟩ := List.mem_map.1 hq
    exact ⟨p.1, p.2, Dict.get?_of_mem hc.nodes_nodup hp, he⟩
  · rintro ⟨n, r, hr, he⟩
    exact ⟨_, List.mem_map.2 ⟨_, List.mem_map.2 ⟨(n, r), Dict.mem_of_get? hr, rfl⟩, rfl⟩, he⟩

/-- The arrays may replace the tensors in Einstein sums over admissible values. -/
theorem einsum_arm (hc : tn.Consistent) (hf : FixOK tn) {val : τ → List Nat → R} {arr : Nm → Arr R}
    (harr : ∀ n r, tn.nodes.get? n = some r → ∃ t, r.ten = some t ∧
      ∀ idx, InRange (r.legs.map tn.dimOf) idx → (arr n).get idx = val t idx) {dom : Nm → Finset Nat}
    (hdom : ∀ e v, v ∈ dom e → v ∈ tn.dom e) (opn : List Nm) (idx : List Nat) :
    einsum dom (tn.factors val) opn idx = einsum dom (armFactors tn.nodeLegs arr) opn idx := by
  refine einsum_factors_congr ?_
  unfold TN.factors armFactors TN.nodeLegs
  rw [List.map_map, List.forall₂_map_left_iff, List.forall₂_map_right_iff, List.forall₂_same]
  intro p hp
  refine ⟨rfl, fun a ha => ?_⟩
  obtain ⟨t, ht, hv⟩ := harr p.1 p.2 (Dict.get?_of_mem hc.nodes_nodup hp)
  show (NodeRec.factor val p.2).ten (p.2.legs.map a) = (arr p.1).get (p.2.legs.map a)
  unfold NodeRec.factor
  rw [ht]
  exact (hv _ (inRange_map.2 fun e he => dom_lt hf (hdom _ _ (ha e he)))).symm

/-- The sum over all sub-tasks is the value of the network. -/
theorem sum_terms_eq (hc : tn.Consistent) (hcan : tn.Canonical) (hf : FixOK tn) (hs : SliceOK tn split)
    {val : τ → List Nat → R} {arr : Nm → Arr R}
    (harr : ∀ n r, tn.nodes.get? n = some r → ∃ t, r.ten = some t ∧
      ∀ idx, InRange (r.legs.map tn.dimOf) idx → (arr n).get idx = val t idx) (b : Nm → Nat) :
    ((List.range (fixLength (fixEntries 0 (tn.plan split)))).map fun k =>
      sliceTerm tn.dimOf (armFactors tn.nodeLegs arr) tn.openE (tn.fixedE ++ tn.slicedE split)
        (assign (digits (tn.plan split)) k fun _ => 0) b).sum = tn.value val (tn.openE.map b) := by
  have hdig : (digits (tn.plan split)).map Prod.fst = tn.fixedE ++ tn.slicedE split := by
    rw [← plan_edges]; unfold digits; rw [List.map_map]; rfl
  have hlen : fixLength (fixEntries 0 (tn.plan split)) = ((digits (tn.plan split)).map fun p => p.2.length).prod := by
    unfold fixLength
    rw [show (fun p : (Nm × List Nat) × Nat => p.1.2.length) = (fun p : Nm × List Nat => p.2.length) ∘ Prod.fst from rfl,
      ← List.map_map, fixEntries_pairs]
    rfl
  have hdom : ∀ p ∈ digits (tn.plan split), p.2.Nodup ∧ tn.dom p.1 = p.2.toFinset := by
    intro p hp
    obtain ⟨x, hx, rfl⟩ := List.mem_map.1 hp
    dsimp only
    rcases plan_vals hc hcan hf hs hx with ⟨_, d, v, hg, _, heq⟩ | ⟨_, d, hg, _, heq⟩
    · rw [heq]
      refine ⟨by simp, ?_⟩
      unfold TN.dom EdgeRec.dom; rw [hg]
    · rw [heq]
      refine ⟨List.nodup_range, ?_⟩
      unfold TN.dom EdgeRec.dom; rw [hg]
      dsimp only
      ext i; simp
  rw [sum_range_list, hlen, sum_assign hdom fun σ => sliceTerm tn.dimOf (armFactors tn.nodeLegs arr) tn.openE
    (tn.fixedE ++ tn.slicedE split) σ b, hdig]
  have hmemL : ∀ {e : Nm}, (∃ f ∈ armFactors tn.nodeLegs arr, e ∈ f.legs) ↔
      ∃ n r, tn.nodes.get? n = some r ∧ e ∈ r.legs := mem_arm_legs hc
  have hfac : tn.value val (tn.openE.map b) = einsum tn.dom (armFactors tn.nodeLegs arr) tn.openE (tn.openE.map b) :=
    einsum_arm hc hf harr (fun _ _ h => h) _ _
  rw [hfac, einsum_slice (P := tn.fixedE ++ tn.slicedE split) (plan_nodup hc hcan hf hs) (fun e he => ?_)
    (fun σ => (armFactors tn.nodeLegs arr).map (Factor.pin (tn.fixedE ++ tn.slicedE split) σ))
    (fun σ _ => by rw [List.forall₂_map_right_iff, List.forall₂_same]; exact fun f _ => slicedBy_pin _ _ _ f)]
  · refine sumOver_congr fun σ => ?_
    unfold sliceTerm
    congr 1
    refine einsum_dom_congr fun e he => ?_
    have hu : e ∉ tn.fixedE ++ tn.slicedE split ∧ e ∈ tn.edges.keys := by
      rcases mem_usedEdges.1 he with ⟨f, hf', hl⟩ | h
      · obtain ⟨g, hg, rfl⟩ := List.mem_map.1 hf'
        obtain ⟨h1, h2⟩ := List.mem_filter.1 (show e ∈ g.legs.filter _ from hl)
        obtain ⟨n, r, hr, hl'⟩ := hmemL.1 ⟨g, hg, h1⟩
        exact ⟨by simpa using h2, hc.legs_exist n r hr e hl'⟩
      · obtain ⟨h1, h2⟩ := List.mem_filter.1 h
        exact ⟨by simpa using h2, hc.open_exist e h1⟩
    refine (dom_of_unfixed ?_ hu.2).symm
    rw [Bool.eq_false_iff, ne_eq, isFixed_iff_mem hc hf]
    exact fun h => hu.1 (List.mem_append_left _ h)
  · rcases List.mem_append.1 he with h | h
    · obtain ⟨d, v, hg, _⟩ := (mem_fixedE hc hf).1 h
      right
      refine ⟨v, ?_⟩
      unfold TN.dom EdgeRec.dom
      rw [hg]; rfl
    · left
      exact mem_usedEdges.2 (Or.inl (hmemL.2 (hs.attached e ((mem_slicedE hc hcan hs).1 h))))

/-- Compiling succeeds and yields a task ready to run, whenever the template is one of the network. -/
theorem compileGen_ok (L : Type) [AddCommMonoid L] {contract : τ → Option (Arr R)} {val : τ → List Nat → R}
    {gen : List Nat → Except Err (Task R × (Nat → Nat))} {memory width : Nat}
    (hc : tn.Consistent) (hcan : tn.Canonical) (hr : tn.Ready) (hf : FixOK tn) (hs : SliceOK tn split)
    (hcon : ∀ n r t, tn.nodes.get? n = some r → r.ten = some t → Contracts contract val t)
    (hgen0 : ∃ (T : Task R), gen (tn.openE.map tn.dimOf) =
        .ok (T, initFix (fixedEntries tn.edges ++ sliceEntries split (tn.pruned split).edges)) ∧
      TaskOK L tn.dimOf tn.nodeLegs tn.openE ((fixedEntries tn.edges).map Prod.fst)
        ((sliceEntries split (tn.pruned split).edges).map Prod.fst) T ∧
      T.fixDict = fixEntries 0 (fixedEntries tn.edges ++ sliceEntries split (tn.pruned split).edges) ∧
      T.length = fixLength T.fixDict ∧ T.cmds ≠ [])
    (hmem : width * 3 * 2 ^ 4 ≤ memory * 2 ^ 30) :
    ∃ (T : Task R) (h : Heap L R) (arr : Nm → Arr R),
      compileGen gen contract memory tn width = .ok (T, h) ∧
      RunOK L tn.dimOf tn.nodeLegs tn.openE tn.fixedE (tn.slicedE split) (tn.plan split) arr T ∧
      CellsSet tn.fixedE (tn.plan split) h ∧ T.length = fixLength T.fixDict ∧
      T.data.keys = tn.nodeLegs.map Prod.fst ∧ T.pre = some false ∧
      ∀ n r, tn.nodes.get? n = some r → ∃ t, r.ten = some t ∧
        ∀ idx, InRange (r.legs.map tn.dimOf) idx → (arr n).get idx = val t idx := by
  obtain ⟨T, hgen, hT, hTd, hTl, hTc⟩ := hgen0
  have hex : ∀ p ∈ tn.nodes, ∃ a : Arr R, (p.2.ten.bind contract) = some a ∧ a.shape = p.2.legs.map tn.dimOf ∧
      ∃ t, p.2.ten = some t ∧ ∀ idx, InRange (p.2.legs.map tn.dimOf) idx → a.get idx = val t idx := by
    intro p hp
    have hg := Dict.get?_of_mem hc.nodes_nodup hp
    obtain ⟨t, ht, hsh⟩ := (hr.nodes p.1 p.2 hg).legs_dims
    obtain ⟨a, ha1, ha2, ha3⟩ := hcon p.1 p.2 t hg ht _ hsh
    exact ⟨a, by rw [ht]; exact ha1, ha2, t, ht, ha3⟩
  have : Inhabited (Arr R) := ⟨zeroArr []⟩
  obtain ⟨g, hgs⟩ := choose_fun hex
  have hget : ∀ p ∈ tn.nodes, tn.nodes.get? p.1 = some p.2 := fun p hp => Dict.get?_of_mem hc.nodes_nodup hp
  let arr : Nm → Arr R := fun n => match tn.nodes.get? n with | some r => g (n, r) | none => default
  have harr : ∀ p ∈ tn.nodes, arr p.1 = g p := by
    intro p hp
    show (match tn.nodes.get? p.1 with | some r => g (p.1, r) | none => default) = _
    rw [hget p hp]
  have hdata : (tn.nodes.mapM fun p => (p.2.ten.bind contract).map fun a => (p.1, a)) =
      some (tn.nodes.map fun p => (p.1, arr p.1)) := mapM_some fun p hp => by
    rw [(hgs p hp).1, harr p hp]; rfl
  have hdk : Dict.keys (tn.nodes.map fun p => (p.1, arr p.1)) = tn.nodeLegs.map Prod.fst := by
    rw [nodeLegs_fst]; unfold Dict.keys; rw [List.map_map]; rfl
  have hnd := plan_nodup hc hcan hf hs
  have hinit : ∀ x ∈ tn.plan split, initFix (tn.plan split) ((tn.fixedE ++ tn.slicedE split).idxOf x.1) = x.2.2 := by
    intro x hx
    unfold initFix
    obtain ⟨i, hi, rfl⟩ := List.mem_iff_getElem.1 hx
    have hnd' : ((tn.plan split).map Prod.fst).Nodup := by rw [plan_edges]; exact hnd
    have h1 : (tn.fixedE ++ tn.slicedE split).idxOf (tn.plan split)[i].1 = i := by
      rw [← plan_edges]
      have : (tn.plan split)[i].1 = ((tn.plan split).map Prod.fst)[i]'(by simpa using hi) := by simp
      rw [this]
      exact List.Nodup.idxOf_getElem hnd' i _
    rw [h1, List.getElem?_map, List.getElem?_eq_getElem hi]
    rfl
  have hset : CellsSet tn.fixedE (tn.plan split)
      (⟨fun c => if T.cmds = [] ∧ c = T.output then some (0, zeroArr (tn.openE.map tn.dimOf)) else none,
        initFix (tn.plan split)⟩ : Heap L R) := by
    intro x hx hF v hv
    have := hinit x hx
    rw [List.idxOf_append_of_mem hF] at this
    dsimp only
    rw [this]
    rcases plan_vals hc hcan hf hs hx with ⟨_, d, v', hg, _, heq⟩ | ⟨hsp, _⟩
    · rw [heq] at hv ⊢
      simp only [List.cons.injEq, and_true] at hv
      exact hv
    · exact absurd ((mem_slicedE hc hcan hs).2 hsp) fun h => (List.disjoint_of_nodup_append hnd) hF h
  have hkeys : (Dict.keys (fixEntries 0 (tn.plan split))).Nodup := by
    have h0 : ((fixEntries 0 (tn.plan split)).map fun p => p.1.1).Nodup := by
      rw [fixEntries_edges, plan_edges]; exact hnd
    rw [show (fun p : (Nm × List Nat) × Nat => p.1.1) = Prod.fst ∘ Prod.fst from rfl, ← List.map_map] at h0
    exact h0.of_map
  have hupd : Task.updateFix (T.setData (tn.nodes.map fun p => (p.1, arr p.1))) tn
      (⟨fun c => if T.cmds = [] ∧ c = T.output then some (0, zeroArr (tn.openE.map tn.dimOf)) else none,
        initFix (tn.plan split)⟩ : Heap L R) =
      some ({ T.setData (tn.nodes.map fun p => (p.1, arr p.1)) with pre := some false },
        ⟨fun c => if T.cmds = [] ∧ c = T.output then some (0, zeroArr (tn.openE.map tn.dimOf)) else none,
        initFix (tn.plan split)⟩) := by
    unfold Task.updateFix
    rw [show (T.setData (tn.nodes.map fun p => (p.1, arr p.1))).fixDict = fixEntries 0 (tn.plan split) from hTd,
      updateFixGo_same (fun p hp => ?_) (by simpa using hkeys)]
    · dsimp only
      rw [List.nil_append]
      have : fixEntries 0 (tn.plan split) = (T.setData (tn.nodes.map fun p => (p.1, arr p.1))).fixDict := hTd.symm
      rw [this]
    · obtain ⟨i, w, hi, hpi⟩ := mem_fixEntries.1 hp
      have hx := List.mem_of_getElem? hi
      rcases plan_vals hc hcan hf hs hx with ⟨hF, d, v', hg, _, heq⟩ | ⟨hsp, d, hg, _⟩
      · right
        dsimp only at hg heq
        simp only [Prod.mk.injEq] at heq
        refine ⟨v', [], by rw [hg]; rfl, heq.1, ?_⟩
        have h3 := hinit _ hx
        dsimp only at h3
        rw [hpi, Nat.zero_add]
        show initFix (tn.plan split) i = v'
        have h4 : i = (tn.fixedE ++ tn.slicedE split).idxOf p.1.1 := by
          have hnd' : ((tn.plan split).map Prod.fst).Nodup := by rw [plan_edges]; exact hnd
          obtain ⟨hlt, hi'⟩ := List.getElem?_eq_some_iff.1 hi
          rw [← plan_edges]
          have : p.1.1 = ((tn.plan split).map Prod.fst)[i]'(by simpa using hlt) := by simp [hi']
          rw [this]
          exact (List.Nodup.idxOf_getElem hnd' i _).symm
        rw [h4, h3, heq.2]
      · left
        dsimp only at hg
        rw [hg]; rfl
  have hopenm : (tn.openE.mapM fun e => (tn.edges.get? e).bind EdgeRec.dim) = some (tn.openE.map tn.dimOf) :=
    mapM_some fun e he => by
      obtain ⟨er, d, h1, h2⟩ := hr.opens e he
      unfold TN.dimOf
      rw [h1]
      simp [h2]
  refine ⟨{ T.setData (tn.nodes.map fun p => (p.1, arr p.1)) with pre := some false }, _, arr, ?_, ?_, hset, hTl, (by exact hdk), rfl, ?_⟩
  · unfold compileGen
    rw [if_neg (by omega), hopenm]
    dsimp only
    rw [hgen]
    dsimp only
    rw [hdata]
    dsimp only
    rw [show fixedEntries tn.edges ++ sliceEntries split (tn.pruned split).edges = tn.plan split from rfl, hupd]
  · refine ⟨⟨hT.inputs, hT.openE, hT.shape, hT.subOut, hT.sem⟩, by rw [nodeLegs_fst]; exact hc.nodes_nodup, hcan.nodup,
      ?_, plan_edges, hnd, hTd, ?_, ?_, List.Perm.of_eq hdk, ?_, ?_⟩
    · intro e he hF
      obtain ⟨d, v, hg, _⟩ := (mem_fixedE hc hf).1 hF
      have := hcan.unfixed e he _ hg
      simp at this
    · intro x hx hF
      rcases plan_vals hc hcan hf hs hx with ⟨_, d, v', hg, hlt, heq⟩ | ⟨hsp, _⟩
      · refine ⟨v', by rw [heq], ?_⟩
        unfold TN.dimOf; rw [hg]; exact hlt
      · exact absurd ((mem_slicedE hc hcan hs).2 hsp) fun h => (List.disjoint_of_nodup_append hnd) hF h
    · intro x hx hS
      rcases plan_vals hc hcan hf hs hx with ⟨hF, _⟩ | ⟨_, d, hg, hpos, heq⟩
      · exact absurd hS fun h => (List.disjoint_of_nodup_append hnd) hF h
      · have hd : tn.dimOf x.1 = d := by unfold TN.dimOf; rw [hg]; rfl
        rw [hd, heq]; exact ⟨rfl, hpos⟩
    · intro p hp
      obtain ⟨q, hq, rfl⟩ := List.mem_map.1 hp
      refine ⟨?_, ?_⟩
      · refine Dict.get?_of_mem (d := tn.nodes.map fun p => (p.1, arr p.1)) ?_ (List.mem_map.2 ⟨q, hq, rfl⟩)
        rw [hdk, nodeLegs_fst]; exact hc.nodes_nodup
      · dsimp only
        rw [harr q hq]; exact (hgs q hq).2.1
    · intro hlen e he heS
      have hsp := (mem_slicedE hc hcan hs).1 heS
      rcases hs.proper with h | ⟨e', he', hne⟩
      · exact h e hsp he
      · obtain ⟨d, hd, hpos⟩ := hs.ok e' he'
        have hT1 : fixLength (fixEntries 0 (tn.plan split)) = 1 := by
          rw [show fixEntries 0 (tn.plan split) = T.fixDict from hTd.symm, ← hTl]; exact hlen
        obtain ⟨x, hx, hx1⟩ : ∃ x ∈ tn.plan split, x.1 = e' := by
          have : e' ∈ (tn.plan split).map Prod.fst := by
            rw [plan_edges]; exact List.mem_append_right _ ((mem_slicedE hc hcan hs).2 he')
          obtain ⟨x, hx, h⟩ := List.mem_map.1 this
          exact ⟨x, hx, h⟩
        unfold fixLength at hT1
        have hmemx : ((x.1, x.2.1), (tn.plan split).idxOf x) ∈ fixEntries 0 (tn.plan split) := by
          refine mem_fixEntries.2 ⟨(tn.plan split).idxOf x, x.2.2, ?_, by simp⟩
          have hi : (tn.plan split).idxOf x < (tn.plan split).length := List.idxOf_lt_length_iff.2 hx
          rw [List.getElem?_eq_getElem hi, List.getElem_idxOf]
        have h1 : x.2.1.length ∣ 1 := by
          rw [← hT1]; exact List.dvd_prod (List.mem_map.2 ⟨_, hmemx, rfl⟩)
        rw [Nat.dvd_one] at h1
        rcases plan_vals hc hcan hf hs hx with ⟨hF, _⟩ | ⟨_, d', hg, _, heq⟩
        · exact (List.disjoint_of_nodup_append hnd) hF (by rw [hx1]; exact (mem_slicedE hc hcan hs).2 he')
        · rw [hx1, hd] at hg
          simp only [Option.some.injEq, EdgeRec.mk.injEq, and_true] at hg
          subst hg
          rw [heq] at h1
          simp only [List.length_range] at h1
          rw [h1] at hd
          exact hne hd
  · intro n r hn
    obtain ⟨_, _, t, ht, hv⟩ := hgs (n, r) (Dict.mem_of_get? hn)
    exact ⟨t, ht, by rw [harr (n, r) (Dict.mem_of_get? hn)]; exact hv⟩

/-- Compiling succeeds and yields a task ready to run. -/
theorem compile_ok (L : Type) [AddCommMonoid L] {contract : τ → Option (Arr R)} {val : τ → List Nat → R}
    {order : List OrderStep} {last : Nm} {memory width : Nat}
    (hc : tn.Consistent) (hcan : tn.Canonical) (hr : tn.Ready) (hf : FixOK tn) (hs : SliceOK tn split)
    (hcon : ∀ n r t, tn.nodes.get? n = some r → r.ten = some t → Contracts contract val t)
    (hord : order = [] ∨ ValidOrder tn.nodes.keys order last ∧ Pairwise2 order)
    (hmem : width * 3 * 2 ^ 4 ≤ memory * 2 ^ 30) :
    ∃ (T : Task R) (h : Heap L R) (arr : Nm → Arr R),
      compile contract memory tn width order split = .ok (T, h) ∧
      RunOK L tn.dimOf tn.nodeLegs tn.openE tn.fixedE (tn.slicedE split) (tn.plan split) arr T ∧
      CellsSet tn.fixedE (tn.plan split) h ∧ T.length = fixLength T.fixDict ∧
      T.data.keys = tn.nodeLegs.map Prod.fst ∧ T.pre = some false ∧
      ∀ n r, tn.nodes.get? n = some r → ∃ t, r.ten = some t ∧
        ∀ idx, InRange (r.legs.map tn.dimOf) idx → (arr n).get idx = val t idx :=
  compileGen_ok L hc hcan hr hf hs hcon (genTemplate_ok (R := R) L (dims := tn.dimOf) hc hcan hf hs hord) hmem

end

end Verif
