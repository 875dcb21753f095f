import Verif.Props.Conj
import Verif.Props.Expand
/-!
# Conjugation, transposition and scalar multiples, all edges summed

Counterparts of C25-C27 for `TVal.tot`.
-/

set_option linter.unusedSectionVars false

namespace Verif

namespace TVal

section Conj

variable {R : Type} [CommSemiring R] [StarRing R]

mutual
/-- Conjugation of an object: the total entries are conjugated. -/
theorem conj_tot : ∀ (t t' : TVal R), conj t = .ok t' → ∀ idx, t'.tot idx = star (t.tot idx)
  | .ten none, t', h => by
    rw [conj] at h; cases h
    exact fun idx => by simp [tot]
  | .ten (some a), t', h => by
    rw [conj] at h; cases h
    exact fun idx => by simp [tot, Arr.conj]
  | .sum ts, t', h => by
    rw [conj] at h
    split at h
    · cases h
    · cases hc : conjTerms ts with
      | error e => rw [hc] at h; cases h
      | ok ts' =>
        rw [hc] at h; cases h
        intro idx
        rw [tot, tot]; exact conjTerms_tot ts ts' hc idx
  | .net ns es adj op c, t', h => by
    rw [conj] at h
    cases hc : conjNodes ns with
    | error e => rw [hc] at h; cases h
    | ok ns' =>
      rw [hc] at h; cases h
      have h1 := conjNodes_tot ns ns' hc
      intro idx
      rw [tot, tot]
      show sumOver _ _ _ _ = star (sumOver _ _ _ _)
      rw [star_sumOver, h1]
      refine sumOver_congr fun b => ?_
      split
      · rw [star_prodAt]
      · exact (star_zero _).symm
  | .view t, t', h => by
    rw [conj] at h; cases h
    exact fun idx => by rw [tot]
theorem conjTerms_tot : ∀ (ts ts' : List (Nm × TVal R)), conjTerms ts = .ok ts' →
    ∀ idx, totSum ts' idx = star (totSum ts idx)
  | [], ts', h => by
    rw [conjTerms] at h; cases h
    exact fun _ => by simp [totSum]
  | (n, t) :: ts, ts', h => by
    rw [conjTerms] at h
    split at h
    · rename_i t1 ts1 h1 h2
      cases h
      intro idx
      rw [totSum, totSum, star_add, conj_tot t t1 h1, conjTerms_tot ts ts1 h2]
    · cases h
    · cases h
theorem conjNodes_tot : ∀ (ns ns' : List (Nm × NodeRec (TVal R))), conjNodes ns = .ok ns' →
    totFactors ns' = (totFactors ns).map Factor.conj
  | [], ns', h => by
    rw [conjNodes] at h; cases h
    simp [totFactors]
  | (n, ⟨legs, none, fr⟩) :: ns, ns', h => by
    rw [conjNodes] at h; cases h
  | (n, ⟨legs, some t, fr⟩) :: ns, ns', h => by
    rw [conjNodes] at h
    split at h
    · rename_i t1 ts1 h1 h2
      cases h
      rw [totFactors, totFactors, conjNodes_tot ns ts1 h2]
      simp only [totOpt, List.map_cons, Factor.conj]
      congr 2
      funext idx; exact conj_tot t t1 h1 idx
    · cases h
    · cases h
end

mutual
theorem whole_conj : ∀ (t t' : TVal R), conj t = .ok t' → Whole t → Whole t'
  | .ten none, t', h, _ => by rw [conj] at h; cases h; rw [Whole]; trivial
  | .ten (some a), t', h, _ => by rw [conj] at h; cases h; rw [Whole]; trivial
  | .sum ts, t', h, hw => by
    rw [conj] at h
    split at h
    · cases h
    · cases hc : conjTerms ts with
      | error e => rw [hc] at h; cases h
      | ok ts' =>
        rw [hc] at h; cases h
        rw [Whole] at hw ⊢
        obtain ⟨h1, h2, h3⟩ := whole_conjTerms ts ts' hc hw.2.2
        exact ⟨h2 ▸ hw.1, h3 ▸ hw.2.1, h1⟩
  | .net ns es adj op c, t', h, hw => by
    rw [conj] at h
    cases hc : conjNodes ns with
    | error e => rw [hc] at h; cases h
    | ok ns' =>
      rw [hc] at h; cases h
      rw [Whole] at hw ⊢
      exact whole_conjNodes ns ns' hc hw
  | .view t, t', h, _ => by rw [conj] at h; cases h; rw [Whole]; trivial
theorem whole_conjTerms : ∀ (ts ts' : List (Nm × TVal R)), conjTerms ts = .ok ts' → WholeTerms ts →
    WholeTerms ts' ∧ ts'.map Prod.fst = ts.map Prod.fst ∧ TSum.shapesOf ts' = TSum.shapesOf ts
  | [], ts', h, _ => by rw [conjTerms] at h; cases h; exact ⟨by rw [WholeTerms]; trivial, rfl, rfl⟩
  | (n, t) :: ts, ts', h, hw => by
    rw [conjTerms] at h
    split at h
    · rename_i t1 ts1 h1 h2
      cases h
      rw [WholeTerms] at hw
      obtain ⟨k1, k2, k3⟩ := whole_conjTerms ts ts1 h2 hw.2
      refine ⟨by rw [WholeTerms]; exact ⟨whole_conj t t1 h1 hw.1, k1⟩, by simp [k2], ?_⟩
      have := (conj_spec t t1 h1).1
      simp only [TSum.shapesOf, List.filterMap_cons, shape_def, this] at k3 ⊢
      rw [k3]
    · cases h
    · cases h
theorem whole_conjNodes : ∀ (ns ns' : List (Nm × NodeRec (TVal R))), conjNodes ns = .ok ns' → WholeNodes ns →
    WholeNodes ns'
  | [], ns', h, _ => by rw [conjNodes] at h; cases h; rw [WholeNodes]; trivial
  | (n, ⟨legs, none, fr⟩) :: ns, ns', h, _ => by rw [conjNodes] at h; cases h
  | (n, ⟨legs, some t, fr⟩) :: ns, ns', h, hw => by
    rw [conjNodes] at h
    split at h
    · rename_i t1 ts1 h1 h2
      cases h
      rw [WholeNodes] at hw ⊢
      exact ⟨whole_conj t t1 h1 hw.1, whole_conjNodes ns ts1 h2 hw.2⟩
    · cases h
    · cases h
end

end Conj

/-! ### Networks on the edges `0, 1, ...`, all of them open -/

variable {R : Type} [CommSemiring R]

theorem open_at {τ : Type} [HasShape τ] {f : τ → List Nat → R} {tn : TN τ} {S op : List Nat} (hn : tn.edges.keys.Nodup)
    (hd : HasDims tn S) (ho : tn.openE = op.map fun k : Nat => Nm.int k) (hop : ∀ k, k < S.length → k ∈ op)
    (hop' : ∀ k ∈ op, k < S.length) {fs : List (Factor Nm R)} (hf : tn.factors f = fs)
    (hl : ∀ g ∈ fs, ∀ e ∈ g.legs, e ∈ rangeLegs S.length) {idx : List Nat} (hi : InRange S idx) :
    tn.total f (op.map fun k => idx[k]?.getD 0) = prodAt fs (listAsg idx) := by
  unfold TN.total
  have e1 : (op.map fun k => idx[k]?.getD 0) = tn.openE.map (listAsg idx) := by
    rw [ho, List.map_map]
    exact List.map_congr_left fun k _ => (listAsg_int idx k).symm
  have hiff : ∀ a : Nm → Nat, tn.openE.map a = op.map (fun k => idx[k]?.getD 0) ↔
      tn.edges.keys.map a = tn.edges.keys.map (listAsg idx) := fun a => by
    rw [e1, List.map_inj_left, List.map_inj_left]
    constructor
    · intro h e he
      obtain ⟨k, hk, rfl⟩ := mem_rangeLegs.1 ((hd.1 e).1 he)
      exact h _ (by rw [ho]; exact List.mem_map.2 ⟨k, hop k hk, rfl⟩)
    · intro h e he
      rw [ho] at he
      obtain ⟨k, hk, rfl⟩ := List.mem_map.1 he
      exact h _ ((hd.1 _).2 (mem_rangeLegs.2 ⟨k, hop' k hk, rfl⟩))
  rw [sumOver_congr (g := fun a => if tn.edges.keys.map a = tn.edges.keys.map (listAsg idx) then
      prodAt (tn.factors f) a else 0) fun a => if_congr (hiff a) rfl rfl, sumOver_pin ?_ hn, hf]
  · refine prodAt_dependsOn fs _ _ fun e he => ?_
    obtain ⟨g, hg, he⟩ := List.mem_flatMap.1 he
    rw [if_pos ((hd.1 e).2 (hl g hg e he))]
  · intro e he
    obtain ⟨k, hk, rfl⟩ := mem_rangeLegs.1 ((hd.1 e).1 he)
    have hk1 := List.getElem?_eq_getElem hk
    rw [hd.dom hk1, Finset.mem_range, listAsg_int]
    exact inRange_get hi hk1

theorem open_none {τ : Type} {f : τ → List Nat → R} {tn : TN τ} {idx : List Nat}
    (h : ∀ a : Nm → Nat, tn.openE.map a ≠ idx) : tn.total f idx = 0 := by
  unfold TN.total
  refine (sumOver_congr fun b => ?_).trans (sumOver_zero _ _ _)
  rw [if_neg (h b)]

theorem oneNode_nodup {τ : Type} [HasShape τ] {name : Option Nm} {i n : Nm} {es : Option (List Nm)} {t : τ} {o : Bool}
    {tn : TN τ} (h : ({} : TN τ).addNode name i es t o = (tn, .ok n)) : tn.edges.keys.Nodup := by
  have h0 : TN.Consistent ({} : TN τ) := TN.Consistent.empty
  exact (h0.addNode (by simp [Dict.keys]) h).edges_nodup

variable [Star R]

/-- C27 for the total entries. -/
theorem transpose_tot {ident : Nm} {t : TVal R} {sh : List Nat} {axes : List Nat}
    (hs : t.shape = some (sh.map some)) (hperm : axes.Perm (List.range sh.length)) :
    ∃ t', transpose ident t axes = .ok t' ∧ t'.shape = some ((axes.map fun k => sh[k]?.getD 0).map some) ∧
      ∀ idx, InRange sh idx → t'.tot (axes.map fun k => idx[k]?.getD 0) = t.tot idx := by
  obtain ⟨tn, h1, h2, h3, h4⟩ := oneNode (τ := TVal R) (o := true) (i := ident) (t := t) hs
  rw [if_pos rfl] at h4
  have hlt : ∀ k ∈ axes, k < sh.length := fun k hk => List.mem_range.1 (hperm.mem_iff.1 hk)
  have hm : axes.mapM (fun i => tn.openE[i]?) = some (axes.map fun k : Nat => Nm.int k) := by
    refine mapM_some fun k hk => ?_
    rw [h4, rangeLegs_get (hlt k hk)]
  have hd : HasDims { tn with openE := axes.map fun k : Nat => Nm.int k } sh := h2
  refine ⟨ofTN { tn with openE := axes.map fun k : Nat => Nm.int k }, ?_, ?_, fun idx hi => ?_⟩
  · unfold transpose; rw [h1]; dsimp only; rw [hm]
  · exact shape_range hd rfl hlt
  · rw [tot_ofTN, open_at (tn := { tn with openE := axes.map fun k : Nat => Nm.int k })
      (show tn.edges.keys.Nodup from oneNode_nodup h1) hd rfl (fun k hk => hperm.mem_iff.2 (List.mem_range.2 hk)) hlt
      (fs := [⟨rangeLegs sh.length, t.tot⟩]) (by unfold TN.factors; rw [h3]; rfl) (by simp) hi]
    have e2 : (rangeLegs sh.length).map (listAsg idx) = idx := by
      have hli : idx.length = sh.length := hi.length_eq
      rw [← hli, rangeLegs_map_full]
    simp [prodAt, Factor.at, e2]

/-- C25 for the total entries: a scalar multiple. -/
theorem mul_scalar_tot {ia ib : Nm} {t : TVal R} {c : R} {sh : List Nat} (hne : ia ≠ ib)
    (hs : t.shape = some (sh.map some)) :
    ∃ t', mul ia t ib (scalar c) = .ok t' ∧ t'.shape = some (sh.map some) ∧
      ∀ idx, InRange sh idx → t'.tot idx = c * t.tot idx := by
  obtain ⟨tn, tn', h1, h2, h3, h4, h5⟩ := twoNodes (τ := TVal R) (a := t) (b := scalar c) (o := true) (sb := []) hne hs
    (by simp [scalar, shape_def, shape]) (by intro k d d' _ h; simp at h)
  have hS : longer sh [] = sh := by
    unfold longer
    split
    · next h => simp only [List.length_nil, Nat.le_zero, List.length_eq_zero_iff] at h; exact h.symm
    · rfl
  rw [hS] at h3
  rw [if_pos rfl] at h5
  have ho : tn'.openE = (List.range sh.length).map fun k : Nat => Nm.int k := by
    rw [h5]; simp [rangeLegs]
  have hn : tn'.edges.keys.Nodup := by
    have h0 : TN.Consistent ({} : TN (TVal R)) := TN.Consistent.empty
    have hc1 := h0.addNode (by simp [Dict.keys]) h1
    obtain ⟨tn2, k1, -, k3, -⟩ := oneNode (τ := TVal R) (o := true) (i := ia) (t := t) hs
    rw [h1] at k1; cases k1
    refine (hc1.addNode ?_ h2).edges_nodup
    intro _
    rw [k3]
    simpa [Dict.keys] using hne.symm
  refine ⟨ofTN tn', ?_, ?_, fun idx hi => ?_⟩
  · unfold mul; rw [h1]; dsimp only; rw [h2]
  · rw [shape_range h3 ho (by simp)]
    congr 2
    apply List.ext_getElem?
    intro k
    by_cases hk : k < sh.length
    · simp [hk]
    · simp [hk]
  · have hli : idx.length = sh.length := hi.length_eq
    have e0 : idx = (List.range sh.length).map fun k => idx[k]?.getD 0 := by
      apply List.ext_getElem?
      intro k
      by_cases hk : k < sh.length
      · simp [hk, hli]
      · simp [hk, hli]
    have e2 : (rangeLegs sh.length).map (listAsg idx) = idx := by rw [← hli, rangeLegs_map_full]
    conv_lhs => rw [e0]
    rw [tot_ofTN, open_at hn h3 ho (by simp) (by simp)
      (fs := [⟨rangeLegs sh.length, t.tot⟩, ⟨rangeLegs 0, (scalar c).tot⟩]) (by unfold TN.factors; rw [h4]; rfl)
      (by simp [rangeLegs]) hi]
    simp [prodAt, Factor.at, e2, scalar, tot, mul_comm]

end TVal

end Verif
