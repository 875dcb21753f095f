import Verif.Lemmas.Merge
import Verif.Spec.Expand
/-!
# Edges fixed to at most one value
-/

set_option linter.unusedSectionVars false

namespace Verif

namespace TN

variable {τ : Type}

theorem fixShort_le {tn tn' : TN τ} (h : EdgesLe tn.edges tn'.edges) (hs : tn.FixShort) : tn'.FixShort := by
  intro e r l hr hl
  have hk : e ∈ tn.edges.keys := by rw [← h.keys]; exact Dict.mem_keys_of_get? hr
  obtain ⟨r0, hr0⟩ := Dict.exists_get? hk
  obtain ⟨r', h1, h2, _⟩ := h.ent e r0 hr0
  rw [hr] at h1; cases h1
  exact hs e r0 l hr0 (by rw [← h2]; exact hl)

theorem isFixed_le {tn tn' : TN τ} (h : EdgesLe tn.edges tn'.edges) {e : Nm} (hs : tn.IsFixed e) : tn'.IsFixed e := by
  obtain ⟨r, l, h1, h2⟩ := hs
  obtain ⟨r', h3, h4, _⟩ := h.ent e r h1
  exact ⟨r', l, h3, by rw [h4]; exact h2⟩

theorem fixEdge_short {tn tn' : TN τ} {e : Nm} {vals : List Nat} (h : tn.fixEdge e vals = (tn', .ok ()))
    (hv : vals.length ≤ 1) (hs : tn.FixShort) : tn'.FixShort := by
  unfold fixEdge at h
  cases hr : tn.edges.get? e with
  | none => rw [hr] at h; simp at h
  | some r =>
    rw [hr] at h
    simp only at h
    cases hd : r.dim with
    | none => rw [hd] at h; simp at h
    | some d =>
      rw [hd] at h
      simp only at h
      split at h
      · have key : ∀ f : List Nat, f.length ≤ 1 →
            ({ tn with edges := tn.edges.set e { dim := some d, fix := some f } } : TN τ).FixShort := by
          intro f hf x rx l hrx hl
          have hrx : Dict.get? (tn.edges.set e { dim := some d, fix := some f }) x = some rx := hrx
          rw [Dict.get?_set] at hrx
          split at hrx
          · cases hrx; cases hl; exact hf
          · exact hs x rx l hrx hl
        cases hf : r.fix with
        | none =>
          rw [hf] at h
          simp only [Prod.mk.injEq, and_true] at h
          subst h
          exact key vals hv
        | some old =>
          rw [hf] at h
          simp only [Bool.false_eq_true, if_false, Prod.mk.injEq, and_true] at h
          subst h
          exact key _ ((List.length_filter_le _ _).trans (hs e r old hr hf))
      · simp at h

theorem fixEdge_isFixed {tn tn' : TN τ} {e : Nm} {vals : List Nat} (h : tn.fixEdge e vals = (tn', .ok ())) :
    tn'.IsFixed e ∧ ∀ x, tn.IsFixed x → tn'.IsFixed x := by
  obtain ⟨r, r', d, h1, h2, h3, h4, h5, h6, _⟩ := fixEdge_dom h
  obtain ⟨l, hl⟩ := Option.isSome_iff_exists.1 h6
  have he : tn'.IsFixed e := ⟨r', l, by rw [h4]; exact (Dict.get?_set _ _ _ _).trans (if_pos rfl), hl⟩
  refine ⟨he, fun x hx => ?_⟩
  by_cases hxe : x = e
  · rw [hxe]; exact he
  · obtain ⟨rx, lx, g1, g2⟩ := hx
    exact ⟨rx, lx, by rw [h4]; exact (Dict.get?_set _ _ _ _).trans ((if_neg (Ne.symm hxe)).trans g1), g2⟩

theorem mergeStep_short {m e : Nm} {t t' : TN τ} (h : mergeStep m t e = (t', .ok ())) (hs : t.FixShort) :
    t'.FixShort ∧ (t.IsFixed e → t'.IsFixed m) ∧ ∀ x, x ≠ e → t.IsFixed x → t'.IsFixed x := by
  unfold mergeStep at h
  cases hr : t.edges.get? e with
  | none => rw [hr] at h; simp at h
  | some r =>
    rw [hr] at h
    simp only at h
    have key : ∀ t1, t.mergeFix m r.fix = (t1, .ok ()) → t1.FixShort ∧ (t.IsFixed e → t1.IsFixed m) ∧
        ∀ x, t.IsFixed x → t1.IsFixed x := by
      intro t1 h1
      cases hf : r.fix with
      | none =>
        rw [hf] at h1
        simp only [mergeFix, Prod.mk.injEq, and_true] at h1
        subst h1
        refine ⟨hs, fun hfx => ?_, fun x hx => hx⟩
        obtain ⟨r', l, g1, g2⟩ := hfx
        rw [hr] at g1; cases g1
        rw [hf] at g2; cases g2
      | some f =>
        rw [hf] at h1
        have h1 : t.fixEdge m f = (t1, .ok ()) := h1
        exact ⟨fixEdge_short h1 (hs e r f hr hf) hs, fun _ => (fixEdge_isFixed h1).1, (fixEdge_isFixed h1).2⟩
    revert h
    cases hres : t.mergeFix m r.fix with
    | mk t1 o =>
      cases o with
      | error er => intro h; simp at h
      | ok u =>
        obtain ⟨k1, k2, k3⟩ := key t1 hres
        intro h
        simp only at h
        split at h
        · rename_i hem
          simp only [Prod.mk.injEq, and_true] at h
          subst h
          exact ⟨k1, k2, fun x _ hx => k3 x hx⟩
        · rename_i hem
          simp only [Prod.mk.injEq, and_true] at h
          subst h
          have hget : ∀ x, Dict.get? (t1.edges.del e) x = if x = e then none else t1.edges.get? x := fun x => Dict.get?_del _ _ _
          refine ⟨fun x rx l hrx hl => ?_, fun hfx => ?_, fun x hxe hx => ?_⟩
          · have hrx : Dict.get? (t1.edges.del e) x = some rx := hrx
            rw [hget] at hrx
            split at hrx
            · cases hrx
            · exact k1 x rx l hrx hl
          · obtain ⟨rx, l, g1, g2⟩ := k2 hfx
            exact ⟨rx, l, (hget m).trans ((if_neg (Ne.symm hem)).trans g1), g2⟩
          · obtain ⟨rx, l, g1, g2⟩ := k3 x hx
            exact ⟨rx, l, (hget x).trans ((if_neg hxe).trans g1), g2⟩

theorem mergeLoop_short {m : Nm} {es : List Nm} : ∀ {t t' : TN τ}, forLoop (mergeStep m) es t = (t', .ok ()) → t.FixShort →
    t'.FixShort ∧ (∀ e ∈ es, t.IsFixed e → t'.IsFixed m ∨ e ∈ es.filter (· = m)) ∧
      (∀ x, x ∉ es → t.IsFixed x → t'.IsFixed x) ∧ (t.IsFixed m → t'.IsFixed m) := by
  induction es with
  | nil =>
    intro t t' h hs
    cases h
    exact ⟨hs, by simp, fun _ _ h => h, id⟩
  | cons e es ih =>
    intro t t' h hs
    obtain ⟨t1, h1, h2⟩ := forLoop_cons_ok h
    obtain ⟨a1, a2, a3⟩ := mergeStep_short h1 hs
    obtain ⟨b1, b2, b3, b4⟩ := ih h2 a1
    have hm : t.IsFixed m → t1.IsFixed m := fun hf => by
      by_cases hme : m = e
      · exact a2 (hme ▸ hf)
      · exact a3 m hme hf
    refine ⟨b1, fun x hx hf => ?_, fun x hx hf => ?_, fun hf => b4 (hm hf)⟩
    · by_cases hxe : x = e
      · exact Or.inl (b4 (a2 (hxe ▸ hf)))
      · by_cases hxm : x = m
        · exact Or.inr (List.mem_filter.2 ⟨hx, by simpa using hxm⟩)
        · have hx' := (List.mem_cons.1 hx).resolve_left hxe
          refine (b2 x hx' (a3 x hxe hf)).imp_right fun h => ?_
          exact absurd (by simpa using (List.mem_filter.1 h).2) hxm
    · rw [List.mem_cons, not_or] at hx
      exact b3 x hx.2 (a3 x hx.1 hf)

/-- Merging edges into one of them: fixes stay short, and what was fixed is fixed. -/
theorem mergeEdges_short {tn tn' : TN τ} {es : List Nm} {m m' : Nm} (hm : m ∈ tn.edges.keys)
    (h : tn.mergeEdges es (some m) none = (tn', .ok m')) (hs : tn.FixShort) :
    tn'.FixShort ∧ ∀ x, tn.IsFixed x → tn'.IsFixed (if x ∈ es then m else x) := by
  unfold mergeEdges at h
  cases hd : tn.mergeDim es none with
  | none => rw [hd] at h; simp at h
  | some dim =>
    rw [hd] at h
    have hh : tn.edges.has m = true := Dict.has_iff.2 hm
    simp only [Option.isSome_some, Bool.true_and, hh, Bool.not_true, Bool.false_eq_true, if_false,
      Option.some_or] at h
    obtain ⟨E', f1, f2⟩ := updateDimension_frame tn [(m, dim)]
    revert h f1
    cases tn.updateDimension [(m, dim)] with
    | mk t2 o =>
      intro h f1
      cases o with
      | error er => simp at h
      | ok u =>
        simp only at h
        have f3 : t2 = { tn with edges := E' } := f1
        have hle : EdgesLe tn.edges t2.edges := by rw [f3]; exact f2
        revert h
        cases hl : forLoop (mergeStep m) es t2 with
        | mk t3 o3 =>
          cases o3 with
          | error er => intro h; simp at h
          | ok u3 =>
            intro h
            simp only at h
            obtain ⟨b1, b2, b3, b4⟩ := mergeLoop_short hl (fixShort_le hle hs)
            split at h
            · simp only [Prod.mk.injEq] at h
              obtain ⟨rfl, _⟩ := h
              refine ⟨b1, fun x hx => ?_⟩
              have hx2 := isFixed_le hle hx
              split
              · rename_i hxe
                rcases b2 x hxe hx2 with h | h
                · exact h
                · have hxm : x = m := by simpa using (List.mem_filter.1 h).2
                  exact b4 (hxm ▸ hx2)
              · rename_i hxe
                exact b3 x hxe hx2
            · simp at h

end TN

end Verif
