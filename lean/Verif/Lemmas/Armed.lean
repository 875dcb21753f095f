import Verif.Lemmas.CompileOk
/-! # Helper lemmas: compiled tasks as state machines -/

set_option linter.unusedSectionVars false

namespace Verif

variable {R : Type} [CommSemiring R] {L : Type} [AddCommMonoid L] {τ : Type} [HasShape τ]

/-! ## One slice -/

theorem sumOver_pinned {E : Type} [DecidableEq E] {P : List E} {σ : E → Nat} {dom : E → Finset Nat}
    (h : ∀ e ∈ P, dom e = {σ e}) (F : (E → Nat) → R) (a : E → Nat) :
    sumOver dom P F a = F fun e => if e ∈ P then σ e else a e := by
  induction P generalizing a with
  | nil => simp
  | cons e es ih =>
    rw [sumOver_cons, h e (by simp), Finset.sum_singleton, ih fun e' he' => h e' (by simp [he'])]
    congr 1
    funext x
    by_cases h1 : x ∈ es
    · simp [h1]
    · by_cases h2 : x = e
      · subst h2; simp [h1]
      · simp [h1, h2]

section
variable {tn tn2 : TN τ} {split : List Nm}

theorem sliceEntries_filter {es : Dict Nm EdgeRec} {f : Nm → Bool} (h : ∀ e ∈ split, f e = true) :
    sliceEntries split (es.filterKeys f) = sliceEntries split es := by
  unfold sliceEntries Dict.filterKeys
  rw [List.filterMap_filter]
  refine List.filterMap_congr fun p _ => ?_
  by_cases hp : p.1 ∈ split
  · simp [hp, h _ hp]
  · simp [hp]

theorem plan_eq (hR : Runnable tn split) : tn.plan split = fixedEntries tn.edges ++ sliceEntries split tn.edges := by
  have hc1 : TN.Consistent { tn with openE := tn.openE ++ split } := hR.cons.withOpen fun e he => by
    rcases List.mem_append.1 he with h | h
    · exact hR.cons.open_exist e h
    · obtain ⟨d, hd, _⟩ := hR.slice.ok e h
      exact Dict.mem_keys_of_get? hd
  obtain ⟨_, h2, h3, _⟩ := TN.fixAll_spec hc1
  unfold TN.plan
  congr 1
  show sliceEntries split ((TN.fixAll { tn with openE := tn.openE ++ split }).dropDangling).edges = _
  unfold TN.dropDangling
  dsimp only
  rw [sliceEntries_filter, h2, sliceEntries_filter]
  · intro e he; simp [he]
  · intro e he; rw [h3]; simp [he]

/-- The contribution of a sub-task is the part of the value with the sliced edges at their values. -/
theorem sliceTerm_eq (hR : Runnable tn split) {val : τ → List Nat → R} {arr : Nm → Arr R}
    (harr : ∀ n r, tn.nodes.get? n = some r → ∃ t, r.ten = some t ∧
      ∀ idx, InRange (r.legs.map tn.dimOf) idx → (arr n).get idx = val t idx) {σ : Nm → Nat}
    (hσ : ∀ e ∈ tn.fixedE ++ tn.slicedE split, σ e ∈ tn.dom e) (b : Nm → Nat) :
    sliceTerm tn.dimOf (armFactors tn.nodeLegs arr) tn.openE (tn.fixedE ++ tn.slicedE split) σ b =
      tn.sliceValue val split σ (tn.openE.map b) := by
  obtain ⟨hc, hcan, hr, hf, hs⟩ := hR
  have hmem : ∀ e ∈ tn.fixedE ++ tn.slicedE split,
      (if e ∈ split then tn.dom e ∩ {σ e} else tn.dom e) = {σ e} := by
    intro e he
    have h1 := hσ e he
    split
    · ext x
      simp only [Finset.mem_inter, Finset.mem_singleton]
      exact ⟨fun h => h.2, fun h => ⟨h ▸ h1, h⟩⟩
    · next hns =>
      rcases List.mem_append.1 he with h | h
      · obtain ⟨d, v, hg, _⟩ := (mem_fixedE hc hf).1 h
        have hd : tn.dom e = {v} := by
          unfold TN.dom EdgeRec.dom
          rw [hg]; rfl
        rw [hd, Finset.mem_singleton] at h1
        rw [hd, h1]
      · exact absurd ((mem_slicedE hc hcan hs).1 h) hns
  unfold TN.sliceValue
  rw [einsum_arm hc hf harr (fun e v hv => by
      split at hv
      · exact (Finset.mem_inter.1 hv).1
      · exact hv),
    einsum_slice (P := tn.fixedE ++ tn.slicedE split) (plan_nodup hc hcan hf hs) (fun e he => Or.inr ⟨_, hmem e he⟩)
    (fun σ => (armFactors tn.nodeLegs arr).map (Factor.pin (tn.fixedE ++ tn.slicedE split) σ))
    (fun σ _ => by rw [List.forall₂_map_right_iff, List.forall₂_same]; exact fun f _ => slicedBy_pin _ _ _ f),
    sumOver_pinned hmem]
  have hag : ∀ e ∈ tn.fixedE ++ tn.slicedE split,
      (if e ∈ tn.fixedE ++ tn.slicedE split then σ e else 0) = σ e := fun e he => if_pos he
  unfold sliceTerm
  have hcond : (∀ e ∈ tn.openE, e ∈ tn.fixedE ++ tn.slicedE split → σ e = b e) ↔
      ∀ e ∈ tn.openE, e ∈ tn.fixedE ++ tn.slicedE split →
        (if e ∈ tn.fixedE ++ tn.slicedE split then σ e else 0) = b e :=
    ⟨fun h e h1 h2 => by rw [hag e h2]; exact h e h1 h2, fun h e h1 h2 => by rw [← hag e h2]; exact h e h1 h2⟩
  by_cases hA : ∀ e ∈ tn.openE, e ∈ tn.fixedE ++ tn.slicedE split → σ e = b e
  · rw [if_pos hA, if_pos (hcond.1 hA)]
    rw [List.map_congr_left (g := Factor.pin (tn.fixedE ++ tn.slicedE split) σ) fun f _ => Factor.pin_congr hag f]
    refine einsum_dom_congr fun e he => ?_
    have hu : e ∉ tn.fixedE ++ tn.slicedE split ∧ e ∈ tn.edges.keys := by
      rcases mem_usedEdges.1 he with ⟨f, hf', hl⟩ | h
      · obtain ⟨g, hg, rfl⟩ := List.mem_map.1 hf'
        obtain ⟨h1, h2⟩ := List.mem_filter.1 (show e ∈ g.legs.filter _ from hl)
        obtain ⟨n, r, hr, hl'⟩ := (mem_arm_legs hc).1 ⟨g, hg, h1⟩
        exact ⟨by simpa using h2, hc.legs_exist n r hr e hl'⟩
      · obtain ⟨h1, h2⟩ := List.mem_filter.1 h
        exact ⟨by simpa using h2, hc.open_exist e h1⟩
    have hns : e ∉ split := fun h => hu.1 (List.mem_append_right _ ((mem_slicedE hc hcan hs).2 h))
    rw [if_neg hns]
    refine (dom_of_unfixed ?_ hu.2).symm
    rw [Bool.eq_false_iff, ne_eq, isFixed_iff_mem hc hf]
    exact fun h => hu.1 (List.mem_append_left _ h)
  · rw [if_neg hA, if_neg fun h => hA (hcond.2 h)]

/-! ## Tasks -/

/-- The values of the fixed and sliced edges in sub-task `k`. -/
def TN.sliceOf (tn : TN τ) (split : List Nm) (k : Nat) : Nm → Nat := assign (digits (tn.plan split)) k fun _ => 0

/-- The task and its cells are those of the compiled network. -/
def Armed (val : τ → List Nat → R) (tn : TN τ) (split : List Nm) (T : Task R) (h : Heap L R) : Prop :=
  ∃ arr : Nm → Arr R,
    RunOK L tn.dimOf tn.nodeLegs tn.openE tn.fixedE (tn.slicedE split) (tn.plan split) arr T ∧
    CellsSet tn.fixedE (tn.plan split) h ∧ T.length = fixLength T.fixDict ∧
    ∀ n r, tn.nodes.get? n = some r → ∃ t, r.ten = some t ∧
      ∀ idx, InRange (r.legs.map tn.dimOf) idx → (arr n).get idx = val t idx

theorem nodeLegs_keys : tn.nodeLegs.map Prod.fst = tn.nodes.keys := nodeLegs_fst tn

theorem compile_armed (L : Type) [AddCommMonoid L] {contract : τ → Option (Arr R)} {val : τ → List Nat → R}
    {order : List OrderStep} {memory width : Nat} (hR : Runnable tn split) (hS : SchemeOK tn order memory width)
    (hcon : ∀ n r t, tn.nodes.get? n = some r → r.ten = some t → Contracts contract val t) :
    ∃ (T : Task R) (h : Heap L R), compile contract memory tn width order split = .ok (T, h) ∧
      Armed val tn split T h ∧ T.data.keys = tn.nodes.keys ∧ T.pre = some false := by
  have hord : ∃ last, order = [] ∨ ValidOrder tn.nodes.keys order last ∧ Pairwise2 order := by
    rcases hS.order with h | ⟨last, h⟩
    · exact ⟨.nil, Or.inl h⟩
    · exact ⟨last, Or.inr h⟩
  obtain ⟨last, hord⟩ := hord
  obtain ⟨T, h, arr, h1, h2, h3, h4, h5, h6, h7⟩ := compile_ok L hR.cons hR.canon hR.ready hR.fix hR.slice hcon hord
    hS.memory
  exact ⟨T, h, h1, ⟨arr, h2, h3, h4, h7⟩, by rw [h5, nodeLegs_keys], h6⟩

section
variable {val : τ → List Nat → R} {T : Task R} {h : Heap L R}

theorem sliceOf_mem (hR : Runnable tn split) (ha : Armed val tn split T h) (k : Nat) :
    ∀ e ∈ tn.fixedE ++ tn.slicedE split, tn.sliceOf split k e ∈ tn.dom e := by
  obtain ⟨arr, hrun, _⟩ := ha
  intro e he
  obtain ⟨x, hx, rfl⟩ := hrun.mem_of he
  have := hrun.assign_mem k hx
  rcases plan_vals hR.cons hR.canon hR.fix hR.slice hx with ⟨_, d, v, hg, _, heq⟩ | ⟨_, d, hg, _, heq⟩
  · rw [heq] at this
    unfold TN.dom EdgeRec.dom TN.sliceOf
    rw [hg]
    simpa using this
  · rw [heq] at this
    unfold TN.dom EdgeRec.dom TN.sliceOf
    rw [hg]
    simpa using this

theorem length_pos (ha : Armed val tn split T h) : 0 < T.length := by
  obtain ⟨arr, hrun, _, hlen, _⟩ := ha
  rw [hlen]
  unfold fixLength
  rw [Nat.pos_iff_ne_zero, ne_eq, List.prod_eq_zero_iff]
  intro hn
  obtain ⟨p, hp, h0⟩ := List.mem_map.1 hn
  rw [hrun.dict] at hp
  obtain ⟨i, w, hi, _⟩ := mem_fixEntries.1 hp
  have := List.length_pos_of_mem (hrun.assign_mem 0 (List.mem_of_getElem? hi))
  dsimp only at this
  omega

theorem coord_self {opn : List Nm} (hn : opn.Nodup) {idx : List Nat} (hl : idx.length = opn.length) :
    opn.map (coord opn idx) = idx := by
  refine List.ext_getElem (by simpa using hl.symm) fun i h1 h2 => ?_
  rw [List.getElem_map]
  unfold coord
  rw [List.Nodup.idxOf_getElem hn, List.getD_eq_getElem?_getD, List.getElem?_eq_getElem h2]
  rfl

theorem InRange.length {sh idx : List Nat} (h : InRange sh idx) : idx.length = sh.length := List.Forall₂.length_eq h

/-- Executing some of the sub-tasks. -/
theorem Armed.execute (hR : Runnable tn split) {E : Engine L R} {ex : L → R} (hE : E.Sound ex)
    {srt : List Nm → List Nm} (hsrt : ∀ l, (srt l).Perm l) (ha : Armed val tn split T h)
    (hbind : srt T.data.keys = srt tn.nodes.keys) {lst : Option (List Nat)}
    (hlst : (lst.getD (List.range T.length)).Nodup) (hne : lst.getD (List.range T.length) ≠ []) :
    ∃ h' r, T.execute srt E ex lst h = some ({ T with pre := some true }, h', r) ∧
      Armed val tn split { T with pre := some true } h' ∧ r.shape = tn.openE.map tn.dimOf ∧
      ∀ idx, InRange r.shape idx → r.get idx =
        ((lst.getD (List.range T.length)).map fun k => tn.sliceValue val split (tn.sliceOf split k) idx).sum := by
  have hmem := sliceOf_mem hR ha
  obtain ⟨arr, hrun, hset, hlen, harr⟩ := ha
  obtain ⟨h', r, h1, h2, h3, h4⟩ := hrun.execute hE hsrt (by rw [nodeLegs_keys]; exact hbind) hset hlst hne
  refine ⟨h', r, h1, ⟨arr, hrun.withPre _, h2, hlen, harr⟩, h3, fun idx hi => ?_⟩
  have hl : idx.length = tn.openE.length := by rw [hi.length, h3, List.length_map]
  rw [h3] at hi
  rw [← coord_self hR.canon.nodup hl] at hi ⊢
  rw [h4 _ (inRange_map.1 hi)]
  congr 1
  exact List.map_congr_left fun k _ => sliceTerm_eq hR harr (hmem k) _

/-- All sub-tasks together give the value. -/
theorem sum_slices (hR : Runnable tn split) (ha : Armed val tn split T h) {idx : List Nat}
    (hl : idx.length = tn.openE.length) :
    ((List.range T.length).map fun k => tn.sliceValue val split (tn.sliceOf split k) idx).sum = tn.value val idx := by
  have hmem := sliceOf_mem hR ha
  obtain ⟨arr, hrun, hset, hlen, harr⟩ := ha
  rw [hlen, hrun.dict, ← coord_self hR.canon.nodup hl,
    ← sum_terms_eq hR.cons hR.canon hR.fix hR.slice harr (coord tn.openE idx)]
  congr 1
  exact List.map_congr_left fun k _ => (sliceTerm_eq hR harr (hmem k) _).symm

theorem shape_dims (hr : tn.Ready) : tn.shape? = some ((tn.openE.map tn.dimOf).map some) := by
  unfold TN.shape?
  rw [mapM_some (g := fun e => some (tn.dimOf e)) fun e he => ?_, List.map_map]
  · rfl
  · obtain ⟨er, d, h1, h2⟩ := hr.opens e he
    unfold TN.dimOf
    rw [h1]
    simp [h2]

/-- Executing everything gives the value. -/
theorem Armed.execute_all (hR : Runnable tn split) {E : Engine L R} {ex : L → R} (hE : E.Sound ex)
    {srt : List Nm → List Nm} (hsrt : ∀ l, (srt l).Perm l) (ha : Armed val tn split T h)
    (hbind : srt T.data.keys = srt tn.nodes.keys) :
    ∃ h' r, T.execute srt E ex none h = some ({ T with pre := some true }, h', r) ∧
      Armed val tn split { T with pre := some true } h' ∧ Represents val tn r := by
  have hp := length_pos ha
  obtain ⟨h', r, h1, h2, h3, h4⟩ := ha.execute hR hE hsrt hbind (lst := none) List.nodup_range (by
    intro hc
    rw [Option.getD_none, List.range_eq_nil] at hc
    omega)
  refine ⟨h', r, h1, h2, ?_, fun idx hi => ?_⟩
  · rw [shape_dims hR.ready, h3]
  · rw [h4 idx hi]
    exact sum_slices hR ha (by rw [hi.length, h3, List.length_map])

end

end

end Verif
