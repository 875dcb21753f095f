import Verif.Lemmas.Einsum
/-! # Einstein sums: scalar, diagonal and identity factors -/

namespace Verif

variable {E : Type} [DecidableEq E] {R : Type} [CommSemiring R]

/-- A factor without legs and with entry 1 does not matter. -/
theorem einsum_scalar_one (dom : E → Finset Nat) (fs : List (Factor E R)) (opn : List E) (idx : List Nat)
    {t : List Nat → R} (ht : t [] = 1) :
    einsum dom (fs ++ [⟨[], t⟩]) opn idx = einsum dom fs opn idx := by
  rw [einsum_eq_of_mem (nodup_usedEdges fs opn) (fun e => by
    simp [mem_usedEdges, or_and_right, exists_or])]
  refine sumOver_congr fun b => ?_
  rw [prodAt_append]
  simp [prodAt, Factor.at, ht]

/-- A factor on one used edge whose entries select the values in `dom e` may be exchanged against
restricting the edge to these values. -/
theorem einsum_absorb {dom dom' : E → Finset Nat} {fs : List (Factor E R)} {opn : List E} {idx : List Nat}
    {e : E} {t : List Nat → R} (he : e ∈ usedEdges fs opn) (hsub : dom e ⊆ dom' e)
    (hother : ∀ e', e' ≠ e → dom' e' = dom e')
    (ht : ∀ x ∈ dom' e, t [x] = if x ∈ dom e then 1 else 0) :
    einsum dom' (fs ++ [⟨[e], t⟩]) opn idx = einsum dom fs opn idx := by
  have hl : (e :: (usedEdges fs opn).erase e).Perm (usedEdges fs opn) := (List.perm_cons_erase he).symm
  have hnd : (e :: (usedEdges fs opn).erase e).Nodup := hl.nodup_iff.2 (nodup_usedEdges fs opn)
  rw [einsum_eq_of_mem (fs := fs) hnd (fun e' => hl.mem_iff),
    einsum_eq_of_mem (fs := fs ++ [(⟨[e], t⟩ : Factor E R)]) (opn := opn) hnd (fun e' => ?_)]
  · rw [sumOver_cons, sumOver_cons]
    have hdom : ∀ e' ∈ (usedEdges fs opn).erase e, dom' e' = dom e' := fun e' he' =>
      hother e' fun h => (List.nodup_cons.1 hnd).1 (h ▸ he')
    have key : ∀ x ∈ dom' e,
        sumOver dom' ((usedEdges fs opn).erase e)
          (fun a => if opn.map a = idx then prodAt (fs ++ [⟨[e], t⟩]) a else 0) (Function.update (fun _ => 0) e x) =
        if x ∈ dom e then sumOver dom ((usedEdges fs opn).erase e)
          (fun a => if opn.map a = idx then prodAt fs a else 0) (Function.update (fun _ => 0) e x) else 0 := by
      intro x hx
      rw [sumOver_dom_congr hdom]
      have hb : ∀ b, Reach dom ((usedEdges fs opn).erase e) (Function.update (fun _ => 0) e x) b → b e = x := by
        intro b hb
        rw [hb.1 e (List.nodup_cons.1 hnd).1, Function.update_self]
      by_cases hxe : x ∈ dom e
      · rw [if_pos hxe]
        refine sumOver_congr_reach fun b hr => ?_
        rw [prodAt_append]
        simp [prodAt, Factor.at, hb b hr, ht x hx, hxe]
      · rw [if_neg hxe]
        refine (sumOver_congr_reach (g := fun _ => 0) fun b hr => ?_).trans (sumOver_zero _ _ _)
        rw [prodAt_append]
        have : prodAt [(⟨[e], t⟩ : Factor E R)] b = 0 := by
          simp [prodAt, Factor.at, hb b hr, ht x hx, hxe]
        rw [this, mul_zero, ite_self]
    rw [Finset.sum_congr rfl key, ← Finset.sum_filter]
    congr 1
    ext x
    simp only [Finset.mem_filter]
    exact ⟨fun h => h.2, fun h => ⟨hsub h, h⟩⟩
  · rw [hl.mem_iff, mem_usedEdges, mem_usedEdges]
    simp only [List.mem_append, or_and_right, exists_or, List.mem_singleton, exists_eq_left]
    constructor
    · rintro (h | h)
      · exact Or.inl (Or.inl h)
      · exact Or.inr h
    · rintro ((h | h) | h)
      · exact Or.inl h
      · rw [h]; exact mem_usedEdges.1 he
      · exact Or.inr h

/-- An identity matrix between a used edge and a fresh edge, where the fresh edge stands for the used one in
some of the open positions. -/
theorem einsum_delta {dom : E → Finset Nat} {fs : List (Factor E R)} {opn opn' : List E} {idx : List Nat}
    {e e' : E} {t : List Nat → R} (he : e ∈ usedEdges fs opn) (hf : ∀ f ∈ fs, e' ∉ f.legs) (ho : e' ∉ opn)
    (hsub : dom e ⊆ dom e') (hopn : opn'.map (fun x => if x = e' then e else x) = opn)
    (ht : ∀ x y, x ∈ dom e → y ∈ dom e' → t [x, y] = if x = y then 1 else 0) :
    einsum dom (fs ++ [⟨[e, e'], t⟩]) opn' idx = einsum dom fs opn idx := by
  have hne : e' ∉ usedEdges fs opn := by
    rw [mem_usedEdges, not_or]
    exact ⟨fun ⟨f, h1, h2⟩ => hf f h1 h2, ho⟩
  have hnd : (usedEdges fs opn ++ [e']).Nodup :=
    List.Nodup.append (nodup_usedEdges fs opn) (by simp) (by simpa using hne)
  rw [einsum_eq_of_mem (fs := fs ++ [(⟨[e, e'], t⟩ : Factor E R)]) (opn := opn') hnd (fun x => ?_)]
  · rw [sumOver_append]
    show sumOver dom (usedEdges fs opn) _ _ = _
    refine sumOver_congr_reach fun b hb => ?_
    have hbe : b e ∈ dom e := hb.2 e he
    have hee : e ≠ e' := fun h => hne (h ▸ he)
    rw [sumOver_cons]
    have key : ∀ x ∈ dom e', sumOver dom []
        (fun a => if opn'.map a = idx then prodAt (fs ++ [⟨[e, e'], t⟩]) a else 0) (Function.update b e' x) =
        if x = b e then (if opn.map b = idx then prodAt fs b else 0) else 0 := by
      intro x hx
      rw [sumOver_nil, prodAt_append]
      have h1 : prodAt fs (Function.update b e' x) = prodAt fs b :=
        prodAt_dependsOn fs _ _ fun e'' he'' => by
          obtain ⟨f, h2, h3⟩ := List.mem_flatMap.1 he''
          exact Function.update_of_ne (fun h : e'' = e' => hf f h2 (h ▸ h3)) _ _
      have h2 : prodAt [(⟨[e, e'], t⟩ : Factor E R)] (Function.update b e' x) = if x = b e then 1 else 0 := by
        simp only [prodAt, Factor.at, List.map_cons, List.map_nil, List.prod_cons, List.prod_nil, mul_one,
          Function.update_self, Function.update_of_ne hee, ht _ _ hbe hx, eq_comm]
      rw [h1, h2]
      by_cases hxb : x = b e
      · have h3 : opn'.map (Function.update b e' x) = opn.map b := by
          rw [← hopn, List.map_map]
          refine List.map_congr_left fun z _ => ?_
          by_cases hz : z = e'
          · subst hz; simp [hxb]
          · simp [hz]
        rw [h3, if_pos hxb, if_pos hxb, mul_one]
      · simp [hxb]
    rw [Finset.sum_congr rfl key, Finset.sum_ite_eq' (dom e') (b e), if_pos (hsub hbe)]
  · have h1 : e' ∉ opn' → ∀ z, z ∈ opn' ↔ z ∈ opn := by
      intro h z
      rw [← hopn]
      have : opn'.map (fun x => if x = e' then e else x) = opn' := by
        refine (List.map_congr_left fun x hx => ?_).trans (List.map_id _)
        rw [if_neg fun hc : x = e' => h (hc ▸ hx)]; rfl
      rw [this]
    have h2 : ∀ z, z ≠ e' → z ≠ e → (z ∈ opn' ↔ z ∈ opn) := by
      intro z hz hz'
      rw [← hopn, List.mem_map]
      constructor
      · intro h; exact ⟨z, h, by simp [hz]⟩
      · rintro ⟨y, hy, hyz⟩
        split at hyz
        · exact absurd hyz.symm hz'
        · exact hyz ▸ hy
    rw [List.mem_append, List.mem_singleton, mem_usedEdges, mem_usedEdges]
    simp only [List.mem_append, or_and_right, exists_or, exists_eq_left, List.mem_cons,
      List.not_mem_nil, or_false]
    by_cases hz : x = e'
    · simp [hz]
    · by_cases hz' : x = e
      · subst hz'
        have := mem_usedEdges.1 he
        simp [this]
      · rw [h2 x hz hz']
        simp [hz, hz']

end Verif
