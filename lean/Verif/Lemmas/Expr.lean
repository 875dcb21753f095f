import Verif.Model.Task
import Verif.Lemmas.Einsum
import Verif.Lemmas.Value
/-! # Helper lemmas on `numpy.einsum` and pairwise evaluation along a path -/

set_option linter.unusedSectionVars false

namespace Verif

variable {R : Type} [CommSemiring R]

/-- The arrays have the dimensions `dims` on their edges. -/
def Fits (dims : Nm → Nat) (ops : List (List Nm × Arr R)) : Prop := ∀ o ∈ ops, o.2.shape = o.1.map dims

theorem mem_einPairs {dims : Nm → Nat} {ops : List (List Nm × Arr R)} (hf : Fits dims ops) {p : Nm × Nat} :
    p ∈ einPairs ops ↔ (∃ o ∈ ops, p.1 ∈ o.1) ∧ p.2 = dims p.1 := by
  obtain ⟨e, d⟩ := p
  simp only [einPairs, List.mem_flatMap]
  constructor
  · rintro ⟨o, ho, hz⟩
    rw [hf o ho, List.zip_map_right, List.mem_map] at hz
    obtain ⟨⟨a, b⟩, hab, heq⟩ := hz
    simp only [Prod.map_apply, id_eq, Prod.mk.injEq] at heq
    obtain ⟨rfl, rfl⟩ := heq
    have hb : a = b := by
      obtain ⟨i, hi, h⟩ := List.mem_iff_getElem.1 hab
      rw [List.getElem_zip, Prod.mk.injEq] at h
      exact h.1.symm.trans h.2
    subst hb
    exact ⟨⟨o, ho, (List.of_mem_zip hab).1⟩, rfl⟩
  · rintro ⟨⟨o, ho, he⟩, rfl⟩
    refine ⟨o, ho, ?_⟩
    rw [hf o ho, List.zip_map_right, List.mem_map]
    refine ⟨(e, e), ?_, rfl⟩
    obtain ⟨i, hi, rfl⟩ := List.mem_iff_getElem.1 he
    exact List.mem_iff_getElem.2 ⟨i, by simpa using hi, by simp⟩

theorem einPairs_get? {dims : Nm → Nat} {ops : List (List Nm × Arr R)} (hf : Fits dims ops) {e : Nm}
    (he : ∃ o ∈ ops, e ∈ o.1) : (einPairs ops).get? e = some (dims e) := by
  have hk : e ∈ (einPairs ops).keys := List.mem_map.2 ⟨(e, dims e), (mem_einPairs hf).2 ⟨he, rfl⟩, rfl⟩
  obtain ⟨d, hd⟩ := Dict.exists_get? hk
  have h2 : d = dims e := ((mem_einPairs hf).1 (Dict.mem_of_get? hd)).2
  rw [hd, h2]

theorem einDim_eq {dims : Nm → Nat} {ops : List (List Nm × Arr R)} (hf : Fits dims ops) {e : Nm}
    (he : ∃ o ∈ ops, e ∈ o.1) : einDim ops e = dims e := by
  unfold einDim; rw [einPairs_get? hf he]; rfl

theorem einOk_of_fits {dims : Nm → Nat} {ops : List (List Nm × Arr R)} {out : List Nm} (hf : Fits dims ops)
    (hne : ops ≠ []) (hnd : out.Nodup) (hsub : ∀ e ∈ out, ∃ o ∈ ops, e ∈ o.1) : einOk ops out := by
  refine ⟨hne, fun o ho => by rw [hf o ho, List.length_map], fun p hp => ?_, hnd, fun e he => ?_⟩
  · obtain ⟨h1, h2⟩ := (mem_einPairs hf).1 hp
    rw [einPairs_get? hf h1, h2]
  · exact List.mem_map.2 ⟨(e, dims e), (mem_einPairs hf).2 ⟨hsub e he, rfl⟩, rfl⟩

theorem exists_einFactors {ops : List (List Nm × Arr R)} {e : Nm} :
    (∃ f ∈ einFactors ops, e ∈ f.legs) ↔ ∃ o ∈ ops, e ∈ o.1 := by
  unfold einFactors; simp

theorem npEinsum_eq {dims : Nm → Nat} {ops : List (List Nm × Arr R)} {out : List Nm} (hf : Fits dims ops)
    (hne : ops ≠ []) (hnd : out.Nodup) (hsub : ∀ e ∈ out, ∃ o ∈ ops, e ∈ o.1) :
    npEinsum ops out =
      some ⟨out.map dims, einsum (fun e => Finset.range (dims e)) (einFactors ops) out⟩ := by
  unfold npEinsum
  rw [if_pos (einOk_of_fits hf hne hnd hsub)]
  congr 2
  · exact List.map_congr_left fun e he => einDim_eq hf (hsub e he)
  · funext idx
    refine einsum_dom_congr fun e he => ?_
    rw [mem_usedEdges, exists_einFactors] at he
    rw [einDim_eq hf (he.elim id (hsub e))]

theorem perm_eraseTwo {α : Type} {l : List α} {i j : Nat} {x y : α} (hi : l[i]? = some x) (hj : l[j]? = some y)
    (hij : i ≠ j) : l.Perm (x :: y :: (l.eraseIdx (max i j)).eraseIdx (min i j)) := by
  have key : ∀ {i j : Nat} {x y : α}, l[i]? = some x → l[j]? = some y → i < j →
      l.Perm (x :: y :: (l.eraseIdx j).eraseIdx i) := by
    intro i j x y hi hj hlt
    obtain ⟨hjl, rfl⟩ := List.getElem?_eq_some_iff.1 hj
    have h1 : (l.eraseIdx j)[i]? = some x := by rw [List.getElem?_eraseIdx, if_pos hlt, hi]
    obtain ⟨hil, rfl⟩ := List.getElem?_eq_some_iff.1 h1
    refine (List.getElem_cons_eraseIdx_perm hjl).symm.trans ?_
    refine ((List.getElem_cons_eraseIdx_perm hil).symm.cons _).trans ?_
    exact List.Perm.swap _ _ _
  rcases Nat.lt_or_gt_of_ne hij with h | h
  · rw [Nat.max_eq_right h.le, Nat.min_eq_left h.le]; exact key hi hj h
  · rw [Nat.max_eq_left h.le, Nat.min_eq_right h.le]
    exact (key hj hi h).trans (List.Perm.swap _ _ _)

theorem Fits.perm {dims : Nm → Nat} {ops ops' : List (List Nm × Arr R)} (hf : Fits dims ops) (h : ops.Perm ops') :
    Fits dims ops' := fun o ho => hf o (h.mem_iff.2 ho)

theorem mem_keptEdges {x y out : List Nm} {rest : List (List Nm)} {e : Nm} :
    e ∈ keptEdges x y rest out ↔ (e ∈ x ∨ e ∈ y) ∧ ((∃ l ∈ rest, e ∈ l) ∨ e ∈ out) := by
  unfold keptEdges
  simp [List.mem_filter]

/-- A complete pairwise path over `n` operands. -/
def PathOK : Nat → List (Nat × Nat) → Prop
  | _, [] => False
  | n, [(i, j)] => i ≠ j ∧ i < n ∧ j < n ∧ n = 2
  | n, (i, j) :: p => i ≠ j ∧ i < n ∧ j < n ∧ PathOK (n - 1) p

/-- Evaluation along any complete path gives the one-shot Einstein sum. -/
theorem exprEval_eq {dims : Nm → Nat} {ord : List Nm → List Nm} (hord : ∀ l, (ord l).Perm l) {out : List Nm}
    (hnd : out.Nodup) {path : List (Nat × Nat)} {ops : List (List Nm × Arr R)} (hp : PathOK ops.length path)
    (hf : Fits dims ops) (hsub : ∀ e ∈ out, ∃ o ∈ ops, e ∈ o.1) :
    ∃ g, exprEval ord out path ops = some ⟨out.map dims, g⟩ ∧
      ∀ idx, g idx = einsum (fun e => Finset.range (dims e)) (einFactors ops) out idx := by
  induction path generalizing ops with
  | nil => exact hp.elim
  | cons ij rest ih =>
    obtain ⟨i, j⟩ := ij
    have hb : i ≠ j ∧ i < ops.length ∧ j < ops.length := by
      cases rest with
      | nil => exact ⟨hp.1, hp.2.1, hp.2.2.1⟩
      | cons _ _ => exact ⟨hp.1, hp.2.1, hp.2.2.1⟩
    obtain ⟨hij, hi, hj⟩ := hb
    have hx : ops[i]? = some ops[i] := List.getElem?_eq_getElem hi
    have hy : ops[j]? = some ops[j] := List.getElem?_eq_getElem hj
    generalize ops[i] = x at hx
    generalize ops[j] = y at hy
    have hperm := perm_eraseTwo hx hy hij
    have hlen := hperm.length_eq
    unfold exprEval
    simp only [hx, hy, if_neg hij]
    generalize hoth : (ops.eraseIdx (max i j)).eraseIdx (min i j) = others at *
    have hf' := hf.perm hperm
    have hxy : Fits dims [x, y] := fun o ho => hf' o (by simp at ho ⊢; tauto)
    cases rest with
    | nil =>
      have h2 : ops.length = 2 := hp.2.2.2
      have : others = [] := by
        rw [h2] at hlen; simpa using hlen.symm
      subst this
      refine ⟨_, by
        simp only [List.isEmpty_nil, if_true]
        exact npEinsum_eq hxy (by simp) hnd fun e he => by
          obtain ⟨o, ho, heo⟩ := hsub e he
          exact ⟨o, hperm.mem_iff.1 ho, heo⟩, fun idx => ?_⟩
      exact (einsum_perm (hperm.map _) out idx).symm
    | cons q rest' =>
      have hp' : PathOK (ops.length - 1) (q :: rest') := hp.2.2.2
      dsimp only
      set kept := ord (keptEdges x.1 y.1 (others.map Prod.fst) out) with hk
      have hkm : ∀ e, e ∈ kept ↔ (e ∈ x.1 ∨ e ∈ y.1) ∧ ((∃ o ∈ others, e ∈ o.1) ∨ e ∈ out) := by
        intro e
        rw [hk, (hord _).mem_iff, mem_keptEdges]
        simp
      have hkn : kept.Nodup := by
        rw [hk, (hord _).nodup_iff]
        exact (List.nodup_dedup _).filter _
      have hksub : ∀ e ∈ kept, ∃ o ∈ [x, y], e ∈ o.1 := by
        intro e he
        rcases ((hkm e).1 he).1 with h | h
        · exact ⟨x, by simp, h⟩
        · exact ⟨y, by simp, h⟩
      rw [npEinsum_eq hxy (by simp) hkn hksub]
      dsimp only
      obtain ⟨g, hg1, hg2⟩ := ih (ops := others ++ [(kept, ⟨kept.map dims,
          einsum (fun e => Finset.range (dims e)) (einFactors [x, y]) kept⟩)]) (by
          have : (others ++ [(kept, (⟨kept.map dims,
            einsum (fun e => Finset.range (dims e)) (einFactors [x, y]) kept⟩ : Arr R))]).length = ops.length - 1 := by
            rw [hlen]; simp
          rw [this]; exact hp')
        (by
          intro o ho
          rcases List.mem_append.1 ho with h | h
          · exact hf' o (by simp [h])
          · rw [List.mem_singleton.1 h])
        (by
          intro e he
          obtain ⟨o, ho, heo⟩ := hsub e he
          have := hperm.mem_iff.1 ho
          simp only [List.mem_cons] at this
          rcases this with rfl | rfl | h
          · exact ⟨_, List.mem_append_right _ (List.mem_singleton.2 rfl), (hkm e).2 ⟨Or.inl heo, Or.inr he⟩⟩
          · exact ⟨_, List.mem_append_right _ (List.mem_singleton.2 rfl), (hkm e).2 ⟨Or.inr heo, Or.inr he⟩⟩
          · exact ⟨o, List.mem_append_left _ h, heo⟩)
      refine ⟨g, hg1, fun idx => ?_⟩
      rw [hg2]
      rw [einsum_perm (fs := einFactors (others ++ _))
        (gs := (⟨kept, einsum (fun e => Finset.range (dims e)) (einFactors [x, y]) kept⟩ : Factor Nm R) ::
          einFactors others) (by unfold einFactors; simp),
        einsum_contract_group (fun e he => exists_einFactors.2 (hksub e he)) (fun e h1 h2 => ?_)]
      · exact (einsum_perm (fs := einFactors ops) (gs := einFactors [x, y] ++ einFactors others)
          (hperm.map _) out idx).symm
      · rw [exists_einFactors] at h1 h2
        rw [hkm]
        refine ⟨?_, h2⟩
        obtain ⟨o, ho, heo⟩ := h1
        simp at ho
        rcases ho with rfl | rfl
        · exact Or.inl heo
        · exact Or.inr heo

end Verif
