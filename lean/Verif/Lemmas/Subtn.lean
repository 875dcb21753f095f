import Verif.Lemmas.AddNode
import Verif.Lemmas.Consistent
/-! # Exact effect of `subtn` -/

namespace Verif

namespace TN

variable {τ : Type}

theorem emptyOpen_spec (opn : List Nm) :
    (emptyOpen opn : TN τ).nodes = [] ∧ (emptyOpen opn : TN τ).adj = [] ∧ (emptyOpen opn : TN τ).openE = opn ∧
    EdgesExt [] opn (emptyOpen opn : TN τ).edges := by
  have key : ∀ (l : List Nm) (t : TN τ), ∃ E',
      (l.foldl (fun (t : TN τ) e => (t.addEdge (some e) none).1) t) = { t with edges := E' } ∧
      EdgesExt t.edges l E' := by
    intro l
    induction l with
    | nil => exact fun t => ⟨t.edges, rfl, (EdgesLe.refl _).ext⟩
    | cons e l ih =>
      intro t
      obtain ⟨E1, h1, g1⟩ := addEdge_some_ext t e none
      obtain ⟨E2, h2, g2⟩ := ih { t with edges := E1 }
      refine ⟨E2, ?_, g1.trans g2⟩
      rw [List.foldl_cons, h1, h2]
  obtain ⟨E', h1, g⟩ := key opn {}
  unfold emptyOpen
  rw [h1]
  exact ⟨rfl, rfl, rfl, g⟩

/-- The record a node gets in a sub-network. -/
def NodeCopy (src : TN τ) (n : Nm) (r' : NodeRec τ) : Prop :=
  ∃ r, src.nodes.get? n = some r ∧ r.ten.isSome ∧ r' = { r with frozen := false }

theorem subtnNodes_ok [HasShape τ] {src stn stn' : TN τ} {n : Nm}
    (h : subtnNodes src stn n = (stn', .ok ())) :
    n ∉ stn.nodes.keys ∧ ∃ r', NodeCopy src n r' ∧
      stn'.nodes = stn.nodes ++ [(n, r')] ∧ stn'.openE = stn.openE ∧ stn'.idCount = stn.idCount ∧
      stn'.adj = addAdjs stn.adj (r'.legs.map fun e => (n, e)) ∧
      EdgesExt stn.edges r'.legs stn'.edges ∧
      ∀ t sh, r'.ten = some t → HasShape.shape t = some sh → r'.legs.length ≤ sh.length ∧
        ∀ (i : Nat) e d, r'.legs[i]? = some e → sh[i]? = some (some d) →
          ∃ r, stn'.edges.get? e = some r ∧ r.dim = some d := by
  unfold subtnNodes at h
  split at h
  · simp at h
  · next r hr =>
    split at h
    · simp at h
    · next t ht =>
      have hok : ∀ s m, stn.addNode (some n) n (some r.legs) t false = (s, .ok m) → _ :=
        fun s m h => addNode_ok h
      revert h hok
      generalize stn.addNode (some n) n (some r.legs) t false = res
      obtain ⟨s, o⟩ := res
      intro h hok
      cases o with
      | error e => simp at h
      | ok m =>
        obtain ⟨hm, htk, legs, frozen, E', hl, hs, hE, hd⟩ := hok s m rfl
        simp only [Option.getD_some] at hm
        subst hm
        simp only [newLegs, Option.some.injEq, Prod.mk.injEq] at hl
        obtain ⟨rfl, rfl⟩ := hl
        simp only [Prod.mk.injEq, and_true] at h
        subst h
        have hnk : m ∉ stn.nodes.keys := fun hc => by
          simp only [nameTaken] at htk
          rw [Dict.has_iff.2 hc] at htk
          simp at htk
        refine ⟨hnk, { legs := r.legs, ten := some t, frozen := false }, ⟨r, hr, by rw [ht]; rfl, ?_⟩, ?_, ?_, ?_, ?_, ?_, ?_⟩
        · rw [ht]
        · rw [hs]; exact Dict.set_eq_append hnk _
        · rw [hs]; simp
        · rw [hs]
        · rw [hs]
        · rw [hs]; exact hE
        · intro t' sh ht' hsh
          cases ht'
          rw [hs]
          exact hd sh hsh

/-- The loop adding the chosen nodes. -/
theorem subtnLoop_ok [HasShape τ] {src : TN τ} {ns : List Nm} {stn stn' : TN τ}
    (h : forLoop (subtnNodes src) ns stn = (stn', .ok ())) :
    ns.Nodup ∧ (∀ n ∈ ns, n ∉ stn.nodes.keys) ∧
    ∃ f : Nm → NodeRec τ, (∀ n ∈ ns, NodeCopy src n (f n)) ∧
      stn'.nodes = stn.nodes ++ ns.map (fun n => (n, f n)) ∧
      stn'.openE = stn.openE ∧ stn'.idCount = stn.idCount ∧
      (∀ n e, (n, e) ∈ stn'.adj ↔ (n, e) ∈ stn.adj ∨ (n ∈ ns ∧ e ∈ (f n).legs)) ∧
      EdgesExt stn.edges (ns.flatMap fun n => (f n).legs) stn'.edges ∧
      ∀ n ∈ ns, ∀ t sh, (f n).ten = some t → HasShape.shape t = some sh → (f n).legs.length ≤ sh.length ∧
        ∀ (i : Nat) e d, (f n).legs[i]? = some e → sh[i]? = some (some d) →
          ∃ r, stn'.edges.get? e = some r ∧ r.dim = some d := by
  induction ns generalizing stn with
  | nil =>
    simp only [forLoop, Prod.mk.injEq, and_true] at h
    subst h
    exact ⟨List.nodup_nil, by simp, fun _ => ⟨[], none, false⟩, by simp, by simp, rfl, rfl, by simp,
      (EdgesLe.refl _).ext, by simp⟩
  | cons n ns ih =>
    obtain ⟨s1, h1, h2⟩ := forLoop_cons_ok h
    obtain ⟨hn, r', hc, a1, a2, a3, a4, a5, a6⟩ := subtnNodes_ok h1
    obtain ⟨hnd, hfr, f, b0, b1, b2, b3, b4, b5, b6⟩ := ih h2
    have hnn : n ∉ ns := fun hc => hfr n hc (by rw [a1, Dict.keys_append]; simp [Dict.keys])
    have hne : ∀ m ∈ ns, m ≠ n := fun m hm hc => hnn (hc ▸ hm)
    let g : Nm → NodeRec τ := fun m => if m = n then r' else f m
    have hgn : g n = r' := if_pos rfl
    have hg : ∀ m ∈ ns, g m = f m := fun m hm => if_neg (hne m hm)
    refine ⟨List.nodup_cons.2 ⟨hnn, hnd⟩, ?_, g, ?_, ?_, b2.trans a2, b3.trans a3, ?_, ?_, ?_⟩
    · intro m hm hk
      rcases List.mem_cons.1 hm with rfl | hm
      · exact hn hk
      · exact hfr m hm (by rw [a1, Dict.keys_append]; exact List.mem_append_left _ hk)
    · intro m hm
      rcases List.mem_cons.1 hm with rfl | hm
      · rw [hgn]; exact hc
      · rw [hg m hm]; exact b0 m hm
    · rw [b1, a1, List.map_cons, hgn, List.append_assoc, List.singleton_append]
      congr 2
      exact List.map_congr_left fun m hm => by rw [hg m hm]
    · intro m e
      rw [b4, a4, mem_addAdjs, or_assoc]
      refine or_congr_right ?_
      simp only [List.mem_map, Prod.mk.injEq, List.mem_cons]
      constructor
      · rintro (⟨e', he', rfl, rfl⟩ | ⟨h3, h4⟩)
        · exact ⟨Or.inl rfl, hgn ▸ he'⟩
        · exact ⟨Or.inr h3, hg m h3 ▸ h4⟩
      · rintro ⟨rfl | h3, h4⟩
        · exact Or.inl ⟨e, hgn ▸ h4, rfl, rfl⟩
        · exact Or.inr ⟨h3, hg m h3 ▸ h4⟩
    · have := a5.trans b5
      rw [List.flatMap_cons, hgn, List.flatMap_congr (g := fun n => (f n).legs)]
      · exact this
      · intro m hm; rw [hg m hm]
    · intro m hm t sh ht hsh
      rcases List.mem_cons.1 hm with rfl | hm
      · rw [hgn] at ht ⊢
        obtain ⟨c1, c2⟩ := a6 t sh ht hsh
        refine ⟨c1, fun i e d hi hd => ?_⟩
        obtain ⟨r, hr, hrd⟩ := c2 i e d hi hd
        obtain ⟨r2, hr2, _, hd2⟩ := b5.grow.ent e r hr
        exact ⟨r2, hr2, hd2 d hrd⟩
      · rw [hg m hm] at ht ⊢
        exact b6 m hm t sh ht hsh

/-- A successful `subtn`. -/
theorem subtn_ok [HasShape τ] {tn stn : TN τ} {ns opn : List Nm} (h : tn.subtn ns opn = .ok stn) :
    ns.Nodup ∧ (∀ e, e ∈ opn ↔ e ∈ tn.boundaryOfNodes ns) ∧
    ∃ (f : Nm → NodeRec τ) (E1 : Dict Nm EdgeRec), (∀ n ∈ ns, NodeCopy tn n (f n)) ∧
      stn.nodes = ns.map (fun n => (n, f n)) ∧ stn.openE = opn ∧
      (∀ n e, (n, e) ∈ stn.adj ↔ n ∈ ns ∧ e ∈ (f n).legs) ∧
      EdgesExt [] (opn ++ ns.flatMap fun n => (f n).legs) E1 ∧
      stn.edges.keys = E1.keys ∧
      (∀ e, stn.edges.get? e = (E1.get? e).map fun r =>
        if e ∈ tn.closedOfNodes ns then (tn.edges.get? e).getD r else r) ∧
      ∀ n ∈ ns, ∀ t sh, (f n).ten = some t → HasShape.shape t = some sh → (f n).legs.length ≤ sh.length ∧
        ∀ (i : Nat) e d, (f n).legs[i]? = some e → sh[i]? = some (some d) →
          ∃ r, E1.get? e = some r ∧ r.dim = some d := by
  unfold subtn at h
  split at h
  · simp only at h
    split at h
    · next hopn =>
      rw [Bool.and_eq_true, List.all_eq_true, List.all_eq_true] at hopn
      have hl : ∀ s, forLoop (subtnNodes tn) ns (emptyOpen opn) = (s, .ok ()) → _ := fun s h => subtnLoop_ok h
      obtain ⟨e1, e2, e3, e4⟩ := emptyOpen_spec (τ := τ) opn
      revert h hl
      generalize forLoop (subtnNodes tn) ns (emptyOpen opn) = res
      obtain ⟨s, o⟩ := res
      intro h hl
      cases o with
      | error e => simp at h
      | ok u =>
        obtain ⟨hnd, _, f, b0, b1, b2, b3, b4, b5, b6⟩ := hl s rfl
        simp only [Except.ok.injEq] at h
        subst h
        refine ⟨hnd, fun e => ⟨fun he => List.contains_iff_mem.1 (hopn.1 e he),
          fun he => List.contains_iff_mem.1 (hopn.2 e he)⟩, f, s.edges, b0, ?_, b2.trans e3, ?_, e4.trans b5, ?_, ?_, b6⟩
        · show s.nodes = _
          rw [b1, e1, List.nil_append]
        · intro n e
          show (n, e) ∈ s.adj ↔ _
          rw [b4, e2]; simp
        · show Dict.keys (List.map _ _) = _
          simp [Dict.keys, List.map_map, Function.comp_def]
        · intro e
          show Dict.get? (List.map _ s.edges) e = _
          exact Dict.get?_map_val s.edges
            (fun k r => if k ∈ tn.closedOfNodes ns then (tn.edges.get? k).getD r else r) e
    · simp at h
  · simp at h

end TN
end Verif
