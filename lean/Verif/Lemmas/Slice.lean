import Verif.Lemmas.Einsum
/-! # Helper lemmas: splitting an Einstein sum along sliced edges -/

set_option linter.unusedSectionVars false

namespace Verif

variable {E : Type} [DecidableEq E] {R : Type} [CommSemiring R]

/-- `g` is `f` with the edges in `P` pinned to `σ` and removed from the legs. -/
def SlicedBy (dom : E → Finset Nat) (P : List E) (σ : E → Nat) (f g : Factor E R) : Prop :=
  g.legs = f.legs.filter (· ∉ P) ∧
  ∀ a : E → Nat, (∀ e ∈ f.legs, a e ∈ dom e) → (∀ e ∈ P, a e = σ e) → g.ten (g.legs.map a) = f.ten (f.legs.map a)

theorem prodAt_sliced {dom : E → Finset Nat} {P : List E} {σ : E → Nat} {fs gs : List (Factor E R)}
    (h : List.Forall₂ (SlicedBy dom P σ) fs gs) {a : E → Nat} (ha : ∀ f ∈ fs, ∀ e ∈ f.legs, a e ∈ dom e)
    (hσ : ∀ e ∈ P, a e = σ e) : prodAt fs a = prodAt gs a := by
  induction h with
  | nil => rfl
  | cons hfg _ ih =>
    rw [prodAt_cons, prodAt_cons, ih fun f hf => ha f (by simp [hf])]
    congr 1
    exact (hfg.2 a (ha _ (by simp)) hσ).symm

theorem sliced_legs {dom : E → Finset Nat} {P : List E} {σ : E → Nat} {fs gs : List (Factor E R)}
    (h : List.Forall₂ (SlicedBy dom P σ) fs gs) {e : E} :
    (∃ g ∈ gs, e ∈ g.legs) ↔ (∃ f ∈ fs, e ∈ f.legs) ∧ e ∉ P := by
  induction h with
  | nil => simp
  | cons hfg _ ih =>
    simp only [List.mem_cons, exists_eq_or_imp, ih, hfg.1, List.mem_filter, decide_eq_true_eq]
    tauto

/-- Summing additionally over edges with one value that nothing looks at changes nothing. -/
theorem sumOver_singletons {dom : E → Finset Nat} {U : List E} {f : (E → Nat) → R} (hf : Indep f U)
    (hU : ∀ e ∈ U, ∃ v, dom e = {v}) (a : E → Nat) : sumOver dom U f a = f a := by
  induction U generalizing a with
  | nil => rfl
  | cons e es ih =>
    obtain ⟨v, hv⟩ := hU e (by simp)
    rw [sumOver_cons, hv, Finset.sum_singleton,
      ih (fun a b h => hf a b fun e' he' => h e' fun hc => he' (by simp [hc])) fun e' he' => hU e' (by simp [he'])]
    refine hf _ _ fun e' he' => ?_
    exact Function.update_of_ne (fun hc => he' (by simp [hc])) _ _

/-- The edges summed over may include unused edges with one value. -/
theorem einsum_eq_of_mem' {dom : E → Finset Nat} {fs : List (Factor E R)} {opn l : List E} {idx : List Nat}
    (hl : l.Nodup) (h1 : ∀ e ∈ usedEdges fs opn, e ∈ l)
    (h2 : ∀ e ∈ l, e ∈ usedEdges fs opn ∨ ∃ v, dom e = {v}) :
    einsum dom fs opn idx = sumOver dom l (fun a => if opn.map a = idx then prodAt fs a else 0) (fun _ => 0) := by
  classical
  have hperm : l.Perm (l.filter (fun e => decide (e ∈ usedEdges fs opn)) ++
      l.filter (fun e => !decide (e ∈ usedEdges fs opn))) := (List.filter_append_perm _ _).symm
  rw [sumOver_perm hperm, sumOver_append,
    einsum_eq_of_mem (l := l.filter (fun e => decide (e ∈ usedEdges fs opn))) (hl.filter _) (fun e => by
      simp only [List.mem_filter, decide_eq_true_eq]
      exact ⟨fun h => h.2, fun h => ⟨h1 e h, h⟩⟩)]
  refine sumOver_congr fun a =>
    (sumOver_singletons (f := fun a => if opn.map a = idx then prodAt fs a else 0) ?_ ?_ a).symm
  · intro a b hab
    have hu : ∀ e ∈ usedEdges fs opn, a e = b e := fun e he => hab e (by simp [he])
    dsimp only
    rw [List.map_congr_left fun e he => hu e (mem_usedEdges.2 (Or.inr he)),
      prodAt_dependsOn fs a b fun e he => hu e (mem_usedEdges.2 (Or.inl (by simpa [List.mem_flatMap] using he)))]
  · intro e he
    simp only [List.mem_filter, Bool.not_eq_true', decide_eq_false_iff_not] at he
    exact (h2 e he.1).resolve_left he.2

/-- An Einstein sum is the sum, over the values of the sliced edges, of the Einstein sums of the sliced
factors, placed where the open indices agree with the slice. -/
theorem einsum_slice {dom : E → Finset Nat} {P : List E} (hP : P.Nodup) {fs : List (Factor E R)} {opn : List E}
    (hused : ∀ e ∈ P, e ∈ usedEdges fs opn ∨ ∃ v, dom e = {v}) (gs : (E → Nat) → List (Factor E R))
    (h : ∀ σ : E → Nat, (∀ e ∈ P, σ e ∈ dom e) → List.Forall₂ (SlicedBy dom P σ) fs (gs σ)) (b : E → Nat) :
    einsum dom fs opn (opn.map b) =
      sumOver dom P (fun σ => if ∀ e ∈ opn, e ∈ P → σ e = b e then
        einsum dom (gs σ) (opn.filter (· ∉ P)) ((opn.filter (· ∉ P)).map b) else 0) (fun _ => 0) := by
  classical
  let rest : List E := (usedEdges fs opn).filter (· ∉ P)
  have hrest : ∀ e, e ∈ rest ↔ e ∈ usedEdges fs opn ∧ e ∉ P := by intro e; simp [rest]
  have hrn : rest.Nodup := (nodup_usedEdges _ _).filter _
  have hdis : List.Disjoint P rest := fun e h1 h2 => ((hrest e).1 h2).2 h1
  rw [einsum_eq_of_mem' (l := P ++ rest) (List.Nodup.append hP hrn hdis), sumOver_append]
  · refine sumOver_congr_reach fun σ hσ => ?_
    have hf2 := h σ hσ.2
    rw [einsum_eq_of_mem (fs := gs σ) (l := rest) hrn]
    · have h1 : sumOver dom rest (fun a => if opn.map a = opn.map b then prodAt fs a else 0) σ =
          sumOver dom rest (fun a => if (∀ e ∈ opn, e ∈ P → σ e = b e) then
            (if (opn.filter (· ∉ P)).map a = (opn.filter (· ∉ P)).map b then prodAt (gs σ) a else 0) else 0) σ := by
        refine sumOver_congr_reach fun a ha => ?_
        have haP : ∀ e ∈ P, a e = σ e := fun e he => ha.1 e fun hr => ((hrest e).1 hr).2 he
        have hiff : opn.map a = opn.map b ↔ (∀ e ∈ opn, e ∈ P → σ e = b e) ∧
            (opn.filter (· ∉ P)).map a = (opn.filter (· ∉ P)).map b := by
          simp only [List.map_inj_left, List.mem_filter, decide_eq_true_eq]
          constructor
          · intro hh
            exact ⟨fun e he hp => by rw [← haP e hp]; exact hh e he, fun e he => hh e he.1⟩
          · rintro ⟨h1, h2⟩ e he
            by_cases hp : e ∈ P
            · rw [haP e hp]; exact h1 e he hp
            · exact h2 e ⟨he, hp⟩
        have hprod : prodAt fs a = prodAt (gs σ) a := by
          refine prodAt_sliced hf2 (fun f hf e he => ?_) haP
          by_cases hp : e ∈ P
          · rw [haP e hp]; exact hσ.2 e hp
          · exact ha.2 e ((hrest e).2 ⟨mem_usedEdges.2 (Or.inl ⟨f, hf, he⟩), hp⟩)
        by_cases hA : ∀ e ∈ opn, e ∈ P → σ e = b e
        · simp only [hiff, hprod]
          by_cases hB : (opn.filter (· ∉ P)).map a = (opn.filter (· ∉ P)).map b
          · rw [if_pos ⟨hA, hB⟩, if_pos hA, if_pos hB]
          · rw [if_neg fun hc => hB hc.2, if_pos hA, if_neg hB]
        · rw [if_neg fun hc => hA (hiff.1 hc).1, if_neg hA]
      rw [h1]
      split
      · refine sumOver_base_dep (l' := (gs σ).flatMap Factor.legs ++ opn.filter (· ∉ P)) ?_ fun e he hr => ?_
        · intro a c hac
          dsimp only
          rw [List.map_congr_left fun e he => hac e (List.mem_append_right _ he),
            prodAt_dependsOn (gs σ) a c fun e he => hac e (List.mem_append_left _ he)]
        · exfalso
          apply hr
          rw [hrest, mem_usedEdges]
          rcases List.mem_append.1 he with he | he
          · have := (sliced_legs hf2).1 (by simpa [List.mem_flatMap] using he)
            exact ⟨Or.inl this.1, this.2⟩
          · simp only [List.mem_filter, decide_eq_true_eq] at he
            exact ⟨Or.inr he.1, he.2⟩
      · exact sumOver_zero _ _ _
    · intro e
      rw [hrest, mem_usedEdges, mem_usedEdges, sliced_legs hf2, List.mem_filter, decide_eq_true_eq, or_and_right]
  · intro e he
    rw [List.mem_append, hrest]
    by_cases hp : e ∈ P
    · exact Or.inl hp
    · exact Or.inr ⟨he, hp⟩
  · intro e he
    rcases List.mem_append.1 he with he | he
    · exact hused e he
    · exact Or.inl ((hrest e).1 he).1

/-- Putting the values of the pinned edges back between the free indices. -/
def weave (P : List E) (σ : E → Nat) : List E → List Nat → List Nat
  | [], _ => []
  | e :: es, js => if e ∈ P then σ e :: weave P σ es js else js.headD 0 :: weave P σ es js.tail

theorem weave_map (P : List E) (σ a : E → Nat) (legs : List E) :
    weave P σ legs ((legs.filter (· ∉ P)).map a) = legs.map fun e => if e ∈ P then σ e else a e := by
  induction legs with
  | nil => rfl
  | cons e es ih =>
    rw [weave, List.map_cons, List.filter_cons]
    by_cases h : e ∈ P
    · rw [if_pos h, if_pos h, if_neg (by simpa using h), ih]
    · rw [if_neg h, if_neg h, if_pos (by simpa using h), List.map_cons]
      simp only [List.headD_cons, List.tail_cons]
      rw [ih]

/-- The factor with the edges in `P` pinned to `σ`. -/
def Factor.pin (P : List E) (σ : E → Nat) (f : Factor E R) : Factor E R :=
  ⟨f.legs.filter (· ∉ P), fun js => f.ten (weave P σ f.legs js)⟩

theorem slicedBy_pin (dom : E → Finset Nat) (P : List E) (σ : E → Nat) (f : Factor E R) :
    SlicedBy dom P σ f (f.pin P σ) := by
  refine ⟨rfl, fun a _ hσ => ?_⟩
  show f.ten (weave P σ f.legs ((f.legs.filter (· ∉ P)).map a)) = _
  rw [weave_map]
  refine congrArg _ (List.map_congr_left fun e _ => ?_)
  split
  · next h => exact (hσ e h).symm
  · rfl

end Verif
