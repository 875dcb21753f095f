import Verif.Spec.Einsum
/-! # Helper lemmas on Einstein sums -/

set_option linter.unusedSectionVars false

namespace Verif

variable {E : Type} [DecidableEq E] {R : Type} [CommSemiring R]

theorem mem_usedEdges {fs : List (Factor E R)} {opn : List E} {e : E} :
    e ∈ usedEdges fs opn ↔ (∃ f ∈ fs, e ∈ f.legs) ∨ e ∈ opn := by
  simp [usedEdges, List.mem_flatMap]

theorem nodup_usedEdges (fs : List (Factor E R)) (opn : List E) : (usedEdges fs opn).Nodup :=
  List.nodup_dedup _

theorem perm_of_nodup_mem {l l' : List E} (h : l.Nodup) (h' : l'.Nodup)
    (hm : ∀ e, e ∈ l ↔ e ∈ l') : l.Perm l' :=
  (List.perm_ext_iff_of_nodup h h').2 hm

theorem prodAt_nil (a : E → Nat) : prodAt ([] : List (Factor E R)) a = 1 := rfl

theorem prodAt_cons (f : Factor E R) (fs : List (Factor E R)) (a : E → Nat) :
    prodAt (f :: fs) a = f.at a * prodAt fs a := by simp [prodAt]

theorem prodAt_append (fs gs : List (Factor E R)) (a : E → Nat) :
    prodAt (fs ++ gs) a = prodAt fs a * prodAt gs a := by simp [prodAt]

theorem prodAt_perm {fs gs : List (Factor E R)} (h : fs.Perm gs) (a : E → Nat) :
    prodAt fs a = prodAt gs a := (h.map _).prod_eq

theorem Factor.at_dependsOn (f : Factor E R) : DependsOn f.at f.legs := by
  intro a b h
  unfold Factor.at
  congr 1
  exact List.map_congr_left h

theorem prodAt_dependsOn (fs : List (Factor E R)) : DependsOn (prodAt fs) (fs.flatMap Factor.legs) := by
  intro a b h
  unfold prodAt
  congr 1
  refine List.map_congr_left fun f hf => f.at_dependsOn a b fun e he => h e ?_
  exact List.mem_flatMap.2 ⟨f, hf, he⟩

/-- Any duplicate-free list with the right members can be used as the list of summed edges. -/
theorem einsum_eq_of_mem {dom : E → Finset Nat} {fs : List (Factor E R)} {opn : List E}
    {idx : List Nat} {l : List E} (hl : l.Nodup) (hm : ∀ e, e ∈ l ↔ e ∈ usedEdges fs opn) :
    einsum dom fs opn idx =
      sumOver dom l (fun a => if opn.map a = idx then prodAt fs a else 0) (fun _ => 0) :=
  sumOver_perm (perm_of_nodup_mem (nodup_usedEdges fs opn) hl fun e => (hm e).symm) _ _

theorem einsum_perm {dom : E → Finset Nat} {fs gs : List (Factor E R)} (h : fs.Perm gs)
    (opn : List E) (idx : List Nat) : einsum dom fs opn idx = einsum dom gs opn idx := by
  rw [einsum_eq_of_mem (nodup_usedEdges gs opn)]
  · exact sumOver_congr fun b => by rw [prodAt_perm h]
  · intro e
    simp only [mem_usedEdges]
    exact or_congr_left (exists_congr fun f => and_congr_left fun _ => h.symm.mem_iff)

theorem einsum_dom_congr {dom dom' : E → Finset Nat} {fs : List (Factor E R)} {opn : List E}
    {idx : List Nat} (h : ∀ e ∈ usedEdges fs opn, dom e = dom' e) :
    einsum dom fs opn idx = einsum dom' fs opn idx := sumOver_dom_congr h

/-- Pinning the summed edges to prescribed values. -/
theorem sumOver_pin {dom : E → Finset Nat} {l : List E} {a : E → Nat}
    (ha : ∀ e ∈ l, a e ∈ dom e) (hl : l.Nodup) (g : (E → Nat) → R) (a0 : E → Nat) :
    sumOver dom l (fun b => if l.map b = l.map a then g b else 0) a0 =
      g (fun e => if e ∈ l then a e else a0 e) := by
  induction l generalizing a0 g with
  | nil => simp
  | cons e es ih =>
    simp only [sumOver_cons]
    have hne : e ∉ es := (List.nodup_cons.1 hl).1
    have hnd : es.Nodup := (List.nodup_cons.1 hl).2
    have key : ∀ x ∈ dom e,
        sumOver dom es (fun b => if (e :: es).map b = (e :: es).map a then g b else 0)
          (Function.update a0 e x) =
        if x = a e then g (fun e' => if e' ∈ e :: es then a e' else a0 e') else 0 := by
      intro x _
      by_cases hx : x = a e
      · have h1 : sumOver dom es (fun b => if (e :: es).map b = (e :: es).map a then g b else 0)
            (Function.update a0 e x) =
            sumOver dom es (fun b => if es.map b = es.map a then g b else 0)
            (Function.update a0 e x) := by
          refine sumOver_congr_reach fun b hb => ?_
          have : b e = a e := by rw [hb.1 e hne, Function.update_self, hx]
          simp [List.map_cons, this]
        rw [h1, ih (fun e' he' => ha e' (by simp [he'])) hnd, if_pos hx]
        congr 1
        funext e'
        by_cases h2 : e' ∈ es
        · simp [h2]
        · by_cases h3 : e' = e
          · subst h3; simp [h2, hx]
          · simp [h2, h3]
      · have h1 : sumOver dom es (fun b => if (e :: es).map b = (e :: es).map a then g b else 0)
            (Function.update a0 e x) = sumOver dom es (fun _ => 0) (Function.update a0 e x) := by
          refine sumOver_congr_reach fun b hb => ?_
          have : b e ≠ a e := by rw [hb.1 e hne, Function.update_self]; exact hx
          simp [List.map_cons, this]
        rw [h1, sumOver_zero, if_neg hx]
    rw [Finset.sum_congr rfl key, Finset.sum_ite_eq' (dom e) (a e), if_pos (ha e (by simp))]

/-- Value of an Einstein sum at the indices selected by an assignment: only the edges that are not
open remain summed. -/
theorem einsum_at {dom : E → Finset Nat} {S : List (Factor E R)} {L : List E} {a : E → Nat}
    (ha : ∀ e ∈ L, a e ∈ dom e) {inner : List E} (hn : inner.Nodup)
    (hi : ∀ e, e ∈ inner ↔ (∃ f ∈ S, e ∈ f.legs) ∧ e ∉ L) :
    einsum dom S L (L.map a) = sumOver dom inner (prodAt S) a := by
  have hdis : List.Disjoint L.dedup inner := by
    intro e h1 h2
    exact ((hi e).1 h2).2 (List.mem_dedup.1 h1)
  rw [einsum_eq_of_mem (l := L.dedup ++ inner)
    (List.Nodup.append (List.nodup_dedup L) hn hdis)]
  · rw [sumOver_append]
    have h1 : ∀ b : E → Nat, sumOver dom inner (fun c => if L.map c = L.map a then prodAt S c else 0) b
        = if L.dedup.map b = L.dedup.map a then sumOver dom inner (prodAt S) b else 0 := by
      intro b
      have h2 : sumOver dom inner (fun c => if L.map c = L.map a then prodAt S c else 0) b
        = sumOver dom inner (fun c => if L.dedup.map b = L.dedup.map a then prodAt S c else 0) b := by
        refine sumOver_congr_reach fun c hc => ?_
        have h3 : L.map c = L.map a ↔ L.dedup.map b = L.dedup.map a := by
          simp only [List.map_inj_left, List.mem_dedup]
          refine forall_congr' fun e => forall_congr' fun he => ?_
          rw [hc.1 e (fun h => ((hi e).1 h).2 he)]
        simp only [h3]
      rw [h2]
      split
      · rfl
      · exact sumOver_zero _ _ _
    simp only [h1]
    rw [sumOver_pin (fun e he => ha e (List.mem_dedup.1 he)) (List.nodup_dedup L)
      (fun b => sumOver dom inner (prodAt S) b)]
    refine sumOver_base_dep (prodAt_dependsOn S) fun e he1 he2 => ?_
    have : e ∈ L := by
      by_contra hc
      exact he2 ((hi e).2 ⟨by simpa [List.mem_flatMap] using he1, hc⟩)
    simp [this]
  · intro e
    simp only [List.mem_append, List.mem_dedup, hi, mem_usedEdges]
    by_cases h : e ∈ L <;> simp [h]

/-- Replacing a group of factors by its own Einstein sum over a list of edges that contains every
edge of the group still needed outside. -/
theorem einsum_contract_group {dom : E → Finset Nat} {S rest : List (Factor E R)} {L opn : List E}
    (hsub : ∀ e ∈ L, ∃ f ∈ S, e ∈ f.legs)
    (hneed : ∀ e, (∃ f ∈ S, e ∈ f.legs) → ((∃ f ∈ rest, e ∈ f.legs) ∨ e ∈ opn) → e ∈ L)
    (idx : List Nat) :
    einsum dom (⟨L, einsum dom S L⟩ :: rest) opn idx = einsum dom (S ++ rest) opn idx := by
  classical
  let inner : List E := ((S.flatMap Factor.legs).dedup).filter (fun e => e ∉ L)
  have hn : inner.Nodup := (List.nodup_dedup _).filter _
  have hi : ∀ e, e ∈ inner ↔ (∃ f ∈ S, e ∈ f.legs) ∧ e ∉ L := by
    intro e; simp [inner, List.mem_filter, List.mem_flatMap]
  let outer : List E := usedEdges ((⟨L, einsum dom S L⟩ : Factor E R) :: rest) opn
  have houter : ∀ e, e ∈ outer ↔ e ∈ L ∨ (∃ f ∈ rest, e ∈ f.legs) ∨ e ∈ opn := by
    intro e
    simp only [outer, mem_usedEdges, List.mem_cons, exists_eq_or_imp, or_assoc]
  have hdis : List.Disjoint outer inner := by
    intro e h1 h2
    obtain ⟨h3, h4⟩ := (hi e).1 h2
    rcases (houter e).1 h1 with h | h
    · exact h4 h
    · exact h4 (hneed e h3 h)
  rw [einsum_eq_of_mem (fs := S ++ rest) (l := outer ++ inner)
    (List.Nodup.append (nodup_usedEdges _ _) hn hdis)]
  · rw [sumOver_append]
    show sumOver dom outer (fun a => if opn.map a = idx then
      prodAt ((⟨L, einsum dom S L⟩ : Factor E R) :: rest) a else 0) _ = _
    refine sumOver_congr_reach fun a ha => ?_
    have haL : ∀ e ∈ L, a e ∈ dom e := fun e he => ha.2 e ((houter e).2 (Or.inl he))
    have h1 : prodAt ((⟨L, einsum dom S L⟩ : Factor E R) :: rest) a
        = sumOver dom inner (prodAt S) a * prodAt rest a := by
      rw [prodAt_cons]
      congr 1
      exact einsum_at haL hn hi
    have hindep : Indep (prodAt rest) inner :=
      (prodAt_dependsOn rest).indep fun e he h2 => by
        obtain ⟨h3, h4⟩ := (hi e).1 h2
        exact h4 (hneed e h3 (Or.inl (by simpa [List.mem_flatMap] using he)))
    have hopn : ∀ b, Reach dom inner a b → opn.map b = opn.map a := fun b hb =>
      List.map_congr_left fun e he => hb.1 e fun h => by
        obtain ⟨h3, h4⟩ := (hi e).1 h
        exact h4 (hneed e h3 (Or.inr he))
    rw [h1, ← sumOver_mul_right_indep hindep]
    have h2 : sumOver dom inner (fun b => if opn.map b = idx then prodAt (S ++ rest) b else 0) a
        = sumOver dom inner (fun b => if opn.map a = idx then prodAt S b * prodAt rest b else 0) a :=
      sumOver_congr_reach fun b hb => by rw [hopn b hb, prodAt_append]
    rw [h2]
    split
    · rfl
    · rw [sumOver_zero]
  · intro e
    simp only [List.mem_append, houter, hi, mem_usedEdges, or_and_right, exists_or]
    constructor
    · rintro ((h | h | h) | h)
      · exact Or.inl (Or.inl (hsub e h))
      · exact Or.inl (Or.inr h)
      · exact Or.inr h
      · exact Or.inl (Or.inl h.1)
    · rintro ((h | h) | h)
      · by_cases hL : e ∈ L
        · exact Or.inl (Or.inl hL)
        · exact Or.inr ⟨h, hL⟩
      · exact Or.inl (Or.inr (Or.inl h))
      · exact Or.inl (Or.inr (Or.inr h))

end Verif
