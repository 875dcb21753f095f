import Verif.Lemmas.Subtn
/-! # Bond dimensions along edits -/

namespace Verif

/-- Every edge of `E'` was in `E`, and its dimension, if definite, is kept. -/
def EdgesShrink (E E' : Dict Nm EdgeRec) : Prop :=
  ∀ e r', E'.get? e = some r' → ∃ r, E.get? e = some r ∧ ∀ d, r.dim = some d → r'.dim = some d

theorem EdgesShrink.refl (E : Dict Nm EdgeRec) : EdgesShrink E E := fun _ r h => ⟨r, h, fun _ h => h⟩

theorem EdgesShrink.trans {E E' E'' : Dict Nm EdgeRec} (h : EdgesShrink E E') (h' : EdgesShrink E' E'') :
    EdgesShrink E E'' := fun e r'' hr'' => by
  obtain ⟨r', hr', hd'⟩ := h' e r'' hr''
  obtain ⟨r, hr, hd⟩ := h e r' hr'
  exact ⟨r, hr, fun d h => hd' d (hd d h)⟩

theorem EdgesShrink.del (E : Dict Nm EdgeRec) (e : Nm) : EdgesShrink E (E.del e) := fun e' r h => by
  rw [Dict.get?_del] at h
  by_cases hc : e' = e
  · rw [if_pos hc] at h; simp at h
  · rw [if_neg hc] at h; exact ⟨r, h, fun _ h => h⟩

theorem EdgesShrink.set {E : Dict Nm EdgeRec} {e : Nm} {r : EdgeRec} (hr : E.get? e = some r)
    (f : Option (List Nat)) : EdgesShrink E (E.set e { r with fix := f }) := fun e' r' h => by
  rw [Dict.get?_set] at h
  by_cases hc : e = e'
  · rw [if_pos hc] at h; cases h; subst hc; exact ⟨r, hr, fun _ h => h⟩
  · rw [if_neg hc] at h; exact ⟨r', h, fun _ h => h⟩

theorem EdgesShrink.filterKeys (E : Dict Nm EdgeRec) (c : Nm → Bool) : EdgesShrink E (E.filterKeys c) :=
  fun e r h => by
    rw [Dict.get?_filterKeys] at h
    by_cases hc : c e = true
    · rw [if_pos hc] at h; exact ⟨r, h, fun _ h => h⟩
    · rw [if_neg hc] at h; simp at h

namespace TN

variable {τ : Type}

theorem fixEdge_shrink (tn : TN τ) (e : Nm) (vals : List Nat) (cf : Bool) :
    EdgesShrink tn.edges (tn.fixEdge e vals cf).1.edges := by
  rcases fixEdge_frame tn e vals cf with h | ⟨r, f, hr, h⟩
  · rw [h]; exact .refl _
  · rw [h]; exact .set hr _

theorem mergeFix_shrink (tn : TN τ) (m : Nm) (f : Option (List Nat)) :
    EdgesShrink tn.edges (tn.mergeFix m f).1.edges := by
  unfold mergeFix
  split
  · exact fixEdge_shrink _ _ _ _
  · exact .refl _

theorem mergeStep_shrink (m : Nm) (tn : TN τ) (e : Nm) :
    EdgesShrink tn.edges (mergeStep m tn e).1.edges := by
  unfold mergeStep
  split
  · exact .refl _
  · next r hr =>
    have h := mergeFix_shrink tn m r.fix
    revert h
    generalize tn.mergeFix m r.fix = res
    obtain ⟨t, o⟩ := res
    intro h
    cases o with
    | error er => exact h
    | ok u =>
      simp only
      split
      · exact h
      · exact h.trans (.del _ _)

theorem mergeLoop_shrink (m : Nm) (es : List Nm) (tn : TN τ) :
    EdgesShrink tn.edges (forLoop (mergeStep m) es tn).1.edges :=
  forLoop_inv (P := fun t : TN τ => EdgesShrink tn.edges t.edges)
    (fun s e hs => hs.trans (mergeStep_shrink m s e)) es tn (.refl _)

theorem fix1_shrink (tn : TN τ) (e : Nm) : EdgesShrink tn.edges (tn.fix1 e).edges := by
  unfold fix1
  split
  · simp only
    split
    · exact .refl _
    · exact .del _ _
  · exact .refl _

theorem fixAll_shrink (tn : TN τ) : EdgesShrink tn.edges tn.fixAll.edges := by
  unfold fixAll
  generalize tn.edges.keys = ks
  induction ks generalizing tn with
  | nil => exact .refl _
  | cons e ks ih => exact (fix1_shrink tn e).trans (ih _)

end TN
end Verif
