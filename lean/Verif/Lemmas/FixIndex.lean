import Verif.Lemmas.Einsum
import Verif.Spec.Copy
/-!
# Fixing an open index and identifying indices of an Einstein sum
-/

set_option linter.unusedSectionVars false

namespace Verif

variable {E : Type} [DecidableEq E] {R : Type} [CommSemiring R]

theorem map_eq_insertIdx {opn : List E} {i : Nat} {e0 : E} (h : opn[i]? = some e0) (b : E → Nat) (idx : List Nat)
    (v : Nat) : opn.map b = idx.insertIdx i v ↔ b e0 = v ∧ (opn.eraseIdx i).map b = idx := by
  induction opn generalizing i idx with
  | nil => simp at h
  | cons e es ih =>
    cases i with
    | zero =>
      simp only [List.getElem?_cons_zero, Option.some.injEq] at h
      subst h
      simp
    | succ i =>
      simp only [List.getElem?_cons_succ] at h
      cases idx with
      | nil => simp
      | cons x idx =>
        simp only [List.map_cons, List.insertIdx_succ_cons, List.cons.injEq, List.eraseIdx_cons_succ, ih h]
        tauto

theorem mem_of_eraseIdx_or {opn : List E} {i : Nat} {e0 : E} (h : opn[i]? = some e0) (e : E) :
    e ∈ opn ↔ e = e0 ∨ e ∈ opn.eraseIdx i := by
  induction opn generalizing i with
  | nil => simp at h
  | cons x xs ih =>
    cases i with
    | zero =>
      simp only [List.getElem?_cons_zero, Option.some.injEq] at h
      subst h
      simp
    | succ i =>
      simp only [List.getElem?_cons_succ] at h
      simp only [List.mem_cons, ih h, List.eraseIdx_cons_succ]
      tauto

/-- Restricting the range of an open edge to one value and closing the index selects a slice, provided the edge
is still in use or the value is in its range. -/
theorem einsum_fix {dom dom' : E → Finset Nat} {fs : List (Factor E R)} {opn : List E} {i : Nat} {e0 : E} {v : Nat}
    (hi : opn[i]? = some e0) (hd0 : ∀ x, x ∈ dom' e0 ↔ x ∈ dom e0 ∧ x = v) (hd : ∀ e, e ≠ e0 → dom' e = dom e)
    (hv : v ∈ dom e0 ∨ e0 ∈ usedEdges fs (opn.eraseIdx i)) (idx : List Nat) :
    einsum dom' fs (opn.eraseIdx i) idx = einsum dom fs opn (idx.insertIdx i v) := by
  classical
  have hmem : ∀ e, e ∈ usedEdges fs opn ↔ e = e0 ∨ e ∈ usedEdges fs (opn.eraseIdx i) := by
    intro e
    rw [mem_usedEdges, mem_usedEdges, mem_of_eraseIdx_or hi, or_left_comm]
  let rest := (usedEdges fs opn).filter (· ≠ e0)
  have hrn : rest.Nodup := (nodup_usedEdges fs opn).filter _
  have hr0 : e0 ∉ rest := by simp [rest]
  have hrm : ∀ e, e ∈ e0 :: rest ↔ e ∈ usedEdges fs opn := by
    intro e
    simp only [rest, List.mem_cons, List.mem_filter, decide_eq_true_eq, hmem]
    tauto
  have hR : einsum dom fs opn (idx.insertIdx i v) = ∑ x ∈ dom e0, if x = v then
      sumOver dom rest (fun b => if (opn.eraseIdx i).map b = idx then prodAt fs b else 0)
        (Function.update (fun _ => 0) e0 x) else 0 := by
    rw [einsum_eq_of_mem (List.nodup_cons.2 ⟨hr0, hrn⟩) hrm, sumOver_cons]
    refine Finset.sum_congr rfl fun x _ => ?_
    split
    · rename_i hx
      refine sumOver_congr_reach fun b hb => ?_
      have : b e0 = v := by rw [hb.1 e0 hr0, Function.update_self, hx]
      simp only [map_eq_insertIdx hi, this, true_and]
    · rename_i hx
      refine (sumOver_congr_reach fun b hb => ?_).trans (sumOver_zero dom rest _)
      have : ¬ b e0 = v := by rw [hb.1 e0 hr0, Function.update_self]; exact hx
      simp only [map_eq_insertIdx hi, this, false_and, if_false]
  have hdr : ∀ (f : (E → Nat) → R) a, sumOver dom' rest f a = sumOver dom rest f a := fun f a =>
    sumOver_dom_congr fun e he => hd e fun h => hr0 (h ▸ he)
  rw [hR]
  by_cases hu : e0 ∈ usedEdges fs (opn.eraseIdx i)
  · rw [einsum_eq_of_mem (List.nodup_cons.2 ⟨hr0, hrn⟩) (fun e => ?_), sumOver_cons]
    · have : dom' e0 = (dom e0).filter (· = v) := by
        ext x
        rw [hd0, Finset.mem_filter]
      rw [this, Finset.sum_filter]
      refine Finset.sum_congr rfl fun x _ => ?_
      rw [hdr]
    · rw [hrm, hmem]
      exact ⟨fun h => h.elim (fun h => h ▸ hu) id, Or.inr⟩
  · have hv := hv.resolve_right hu
    rw [Finset.sum_ite_eq' (dom e0) v, if_pos hv, einsum_eq_of_mem hrn (fun e => ?_), hdr]
    · refine sumOver_base_dep (l' := usedEdges fs (opn.eraseIdx i)) ?_ ?_
      · intro a b hab
        have h1 : (opn.eraseIdx i).map a = (opn.eraseIdx i).map b :=
          List.map_congr_left fun e he => hab e (mem_usedEdges.2 (Or.inr he))
        have h2 : prodAt fs a = prodAt fs b := prodAt_dependsOn fs a b fun e he => hab e (by
          obtain ⟨f, hf, hef⟩ := List.mem_flatMap.1 he
          exact mem_usedEdges.2 (Or.inl ⟨f, hf, hef⟩))
        simp only [h1, h2]
      · intro e he _
        have : e ≠ e0 := fun h => hu (h ▸ he)
        rw [Function.update_of_ne this]
    · simp only [rest, List.mem_filter, decide_eq_true_eq, hmem]
      exact ⟨fun h => h.1.resolve_left h.2, fun h => ⟨Or.inr h, fun he => hu (he ▸ h)⟩⟩

/-- If the value is not in the range of the open edge, that slice is zero. -/
theorem einsum_slice_zero {dom : E → Finset Nat} {fs : List (Factor E R)} {opn : List E} {i : Nat} {e0 : E} {v : Nat}
    (hi : opn[i]? = some e0) (hv : v ∉ dom e0) (idx : List Nat) :
    einsum dom fs opn (idx.insertIdx i v) = 0 := by
  unfold einsum
  refine (sumOver_congr_reach fun b hb => if_neg ?_).trans (sumOver_zero dom (usedEdges fs opn) _)
  rw [map_eq_insertIdx hi]
  exact fun h => hv (h.1 ▸ hb.2 e0 (mem_usedEdges.2 (Or.inr (List.mem_of_getElem? hi))))

/-! ## Identifying edges -/

/-- Forcing the summed edges to one value. -/
theorem sumOver_const {dom : E → Finset Nat} {l : List E} (hl : l.Nodup) (x : Nat) (g : (E → Nat) → R)
    (a0 : E → Nat) :
    sumOver dom l (fun b => if ∀ e ∈ l, b e = x then g b else 0) a0 =
      if ∀ e ∈ l, x ∈ dom e then g (fun e => if e ∈ l then x else a0 e) else 0 := by
  split
  · rename_i h
    rw [← sumOver_pin (a := fun _ => x) h hl g a0]
    refine sumOver_congr fun b => ?_
    simp only [List.map_inj_left]
  · rename_i h
    refine (sumOver_congr_reach fun b hb => if_neg fun hc => h fun e he => ?_).trans (sumOver_zero dom l _)
    rw [← hc e he]
    exact hb.2 e he

/-- Summing against a copy tensor. -/
theorem sumOver_copy {dom : E → Finset Nat} {l : List E} (hl : l.Nodup) {k : E} (hk : k ∈ l) (g : (E → Nat) → R)
    (a0 : E → Nat) {D : Finset Nat} (hD : ∀ x, x ∈ D ↔ ∀ e ∈ l, x ∈ dom e) :
    sumOver dom l (fun b => copyTen R (l.map b) * g b) a0 = ∑ x ∈ D, g (fun e => if e ∈ l then x else a0 e) := by
  have h1 : sumOver dom l (fun b => copyTen R (l.map b) * g b) a0 =
      sumOver dom l (fun b => ∑ x ∈ dom k, if ∀ e ∈ l, b e = x then g b else 0) a0 := by
    refine sumOver_congr_reach fun b hb => ?_
    have hbk := hb.2 k hk
    by_cases hc : ∀ e ∈ l, b e = b k
    · have : copyTen R (l.map b) = 1 := by
        unfold copyTen
        refine if_pos fun x hx y hy => ?_
        obtain ⟨e, he, rfl⟩ := List.mem_map.1 hx
        obtain ⟨e', he', rfl⟩ := List.mem_map.1 hy
        rw [hc e he, hc e' he']
      rw [this, one_mul, Finset.sum_eq_single_of_mem (b k) hbk, if_pos hc]
      intro x _ hx
      exact if_neg fun h => hx (h k hk).symm
    · have : copyTen R (l.map b) = 0 := by
        unfold copyTen
        refine if_neg fun h => hc fun e he => h _ (List.mem_map.2 ⟨e, he, rfl⟩) _ (List.mem_map.2 ⟨k, hk, rfl⟩)
      rw [this, zero_mul, Finset.sum_eq_zero]
      intro x _
      exact if_neg fun h => hc fun e he => by rw [h e he, h k hk]
  rw [h1, sumOver_sum]
  simp only [sumOver_const hl]
  rw [← Finset.sum_filter]
  refine Finset.sum_congr ?_ fun _ _ => rfl
  ext x
  rw [Finset.mem_filter, hD]
  exact ⟨fun h => h.2, fun h => ⟨h k hk, h⟩⟩

/-- Renaming edges that are not summed. -/
theorem sumOver_rename {dom : E → Finset Nat} {l : List E} {ρ : E → E} (hl : ∀ e ∈ l, ∀ e', ρ e' = e ↔ e' = e)
    (f : (E → Nat) → R) (a : E → Nat) :
    sumOver dom l (fun b => f (fun e => b (ρ e))) a = sumOver dom l f (fun e => a (ρ e)) := by
  induction l generalizing a with
  | nil => rfl
  | cons e es ih =>
    simp only [sumOver_cons]
    refine Finset.sum_congr rfl fun x _ => ?_
    rw [ih fun e' he' => hl e' (List.mem_cons_of_mem _ he')]
    congr 1
    funext e'
    by_cases h : e' = e
    · rw [(hl e List.mem_cons_self e').2 h, h, Function.update_self, Function.update_self]
    · rw [Function.update_of_ne h, Function.update_of_ne fun hc => h ((hl e List.mem_cons_self e').1 hc)]

/-- A factor with renamed legs. -/
def Factor.rename (ρ : E → E) (f : Factor E R) : Factor E R := ⟨f.legs.map ρ, f.ten⟩

theorem copyTen_dedup (l : List E) (b : E → Nat) : copyTen R (l.map b) = copyTen R (l.dedup.map b) := by
  unfold copyTen
  refine if_congr ?_ rfl rfl
  simp only [List.mem_map, List.mem_dedup]

/-- Renaming all of `es` to `m` is the same as attaching a copy tensor to the identified edges `K`. -/
theorem einsum_merge {dom dom' : E → Finset Nat} {fs : List (Factor E R)} {opn es K : List E} {m : E}
    (hes : ∀ e ∈ es, e ∈ K) (hK : ∀ e ∈ K, e = m ∨ e ∈ es) (hm : m ∈ K ∨ m ∉ usedEdges fs opn)
    (hu : ∃ k ∈ K, k ∈ usedEdges fs opn) (hdm : ∀ x, x ∈ dom' m ↔ ∀ e ∈ K, x ∈ dom e)
    (hd : ∀ e, e ∉ K → e ≠ m → dom' e = dom e) (idx : List Nat) :
    einsum dom' (fs.map (Factor.rename fun i => if i ∈ es then m else i))
        (opn.map fun i => if i ∈ es then m else i) idx =
      einsum dom (⟨K, copyTen R⟩ :: fs) opn idx := by
  classical
  set ρ : E → E := fun i => if i ∈ es then m else i with hρ
  obtain ⟨k, hk, hku⟩ := hu
  let rest := (usedEdges fs opn).filter fun e => e ∉ K
  have hrn : rest.Nodup := (nodup_usedEdges fs opn).filter _
  have hrm : ∀ e, e ∈ rest ↔ e ∈ usedEdges fs opn ∧ e ∉ K := fun e => by simp [rest]
  have hmr : m ∉ rest := fun h => by
    rw [hrm] at h
    exact hm.elim h.2 fun h' => h' h.1
  have hρm : ρ k = m := by
    rcases hK k hk with h | h
    · simp only [hρ, h, ite_self]
    · simp only [hρ, if_pos h]
  have hρr : ∀ e ∈ rest, ∀ e', ρ e' = e ↔ e' = e := by
    intro e he e'
    simp only [hρ]
    split
    · rename_i h
      refine ⟨fun h1 => absurd (h1 ▸ he) hmr, fun h1 => absurd (hes _ h) (h1 ▸ ((hrm e).1 he).2)⟩
    · exact Iff.rfl
  let F : (E → Nat) → R := fun a => if opn.map a = idx then prodAt fs a else 0
  have hF : DependsOn F (usedEdges fs opn) := by
    intro a b hab
    have h1 : opn.map a = opn.map b :=
      List.map_congr_left fun e he => hab e (mem_usedEdges.2 (Or.inr he))
    have h2 : prodAt fs a = prodAt fs b := prodAt_dependsOn fs a b fun e he => hab e (by
      obtain ⟨f, hf, hef⟩ := List.mem_flatMap.1 he
      exact mem_usedEdges.2 (Or.inl ⟨f, hf, hef⟩))
    simp only [F, h1, h2]
  have hKn : K.dedup.Nodup := List.nodup_dedup _
  have hkd : k ∈ K.dedup := List.mem_dedup.2 hk
  have hR : einsum dom (⟨K, copyTen R⟩ :: fs) opn idx =
      ∑ x ∈ dom' m, sumOver dom rest F (fun e => if e ∈ K.dedup then x else 0) := by
    rw [einsum_eq_of_mem (l := K.dedup ++ rest), sumOver_append]
    · have h1 : ∀ b : E → Nat, sumOver dom rest
          (fun a => if opn.map a = idx then prodAt ((⟨K, copyTen R⟩ : Factor E R) :: fs) a else 0) b =
          copyTen R (K.dedup.map b) * sumOver dom rest F b := by
        intro b
        rw [← copyTen_dedup, ← sumOver_mul_left (g := fun b => copyTen R (K.map b))]
        · refine sumOver_congr fun c => ?_
          simp only [F, prodAt_cons, Factor.at, mul_ite, mul_zero]
        · intro c hc
          show copyTen R (K.map c) = copyTen R (K.map b)
          congr 1
          refine List.map_congr_left fun e he => hc.1 e fun h => ((hrm e).1 h).2 he
      simp only [h1]
      rw [sumOver_copy hKn hkd]
      intro x
      rw [hdm]
      simp only [List.mem_dedup]
    · rw [List.nodup_append]
      refine ⟨hKn, hrn, fun a ha b hb hab => ((hrm b).1 hb).2 ?_⟩
      rw [← hab]
      exact List.mem_dedup.1 ha
    · intro e
      rw [List.mem_append, List.mem_dedup, hrm, mem_usedEdges, mem_usedEdges]
      constructor
      · rintro (h | ⟨⟨f, hf, h⟩ | h, _⟩)
        · exact Or.inl ⟨_, List.mem_cons_self, h⟩
        · exact Or.inl ⟨f, List.mem_cons_of_mem _ hf, h⟩
        · exact Or.inr h
      · by_cases hc : e ∈ K
        · exact fun _ => Or.inl hc
        · rintro (⟨f, hf, h⟩ | h)
          · rcases List.mem_cons.1 hf with rfl | hf
            · exact Or.inl h
            · exact Or.inr ⟨Or.inl ⟨f, hf, h⟩, hc⟩
          · exact Or.inr ⟨Or.inr h, hc⟩
  have hmem : ∀ e, e ∈ usedEdges (fs.map (Factor.rename ρ)) (opn.map ρ) ↔ ∃ e', e' ∈ usedEdges fs opn ∧ ρ e' = e := by
    intro e
    rw [mem_usedEdges]
    constructor
    · rintro (⟨f, hf, h⟩ | h)
      · obtain ⟨g, hg, rfl⟩ := List.mem_map.1 hf
        obtain ⟨e', he', rfl⟩ := List.mem_map.1 h
        exact ⟨e', mem_usedEdges.2 (Or.inl ⟨g, hg, he'⟩), rfl⟩
      · obtain ⟨e', he', rfl⟩ := List.mem_map.1 h
        exact ⟨e', mem_usedEdges.2 (Or.inr he'), rfl⟩
    · rintro ⟨e', he', rfl⟩
      rcases mem_usedEdges.1 he' with ⟨f, hf, h⟩ | h
      · exact Or.inl ⟨_, List.mem_map.2 ⟨f, hf, rfl⟩, List.mem_map.2 ⟨e', h, rfl⟩⟩
      · exact Or.inr (List.mem_map.2 ⟨e', h, rfl⟩)
  rw [hR, einsum_eq_of_mem (l := m :: rest) (List.nodup_cons.2 ⟨hmr, hrn⟩), sumOver_cons]
  · refine Finset.sum_congr rfl fun x _ => ?_
    have h1 : ∀ b : E → Nat, (if (opn.map ρ).map b = idx then prodAt (fs.map (Factor.rename ρ)) b else 0) =
        F (fun e => b (ρ e)) := by
      intro b
      simp only [F, List.map_map, prodAt, Factor.at, Factor.rename, Function.comp_def]
    simp only [h1]
    rw [sumOver_rename hρr, sumOver_dom_congr (dom' := dom)]
    · refine sumOver_base_dep hF fun e he her => ?_
      have heK : e ∈ K := by
        by_contra hc
        exact her ((hrm e).2 ⟨he, hc⟩)
      rw [if_pos (List.mem_dedup.2 heK)]
      have : ρ e = m := by
        rcases hK e heK with h | h
        · simp only [hρ, h, ite_self]
        · simp only [hρ, if_pos h]
      rw [this, Function.update_self]
    · intro e he
      exact hd e ((hrm e).1 he).2 fun h => hmr (h ▸ he)
  · intro e
    rw [hmem]
    constructor
    · intro h
      rcases List.mem_cons.1 h with rfl | h
      · exact ⟨k, hku, hρm⟩
      · exact ⟨e, ((hrm e).1 h).1, (hρr e h e).2 rfl⟩
    · rintro ⟨e', he', rfl⟩
      by_cases hc : e' ∈ K
      · have : ρ e' = m := by
          rcases hK e' hc with h | h
          · simp only [hρ, h, ite_self]
          · simp only [hρ, if_pos h]
        rw [this]
        exact List.mem_cons_self
      · have : e' ∈ rest := (hrm e').2 ⟨he', hc⟩
        rw [(hρr e' this e').2 rfl]
        exact List.mem_cons_of_mem _ this

end Verif
