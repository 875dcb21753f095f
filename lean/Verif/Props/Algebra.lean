import Verif.Lemmas.Algebra
import Verif.Lemmas.Armed
import Verif.Props.Sum
import Mathlib.Algebra.Star.BigOperators
import Mathlib.Algebra.BigOperators.Ring.Finset
import Mathlib.Data.Complex.Basic
import Mathlib.Data.Complex.BigOperators
/-!
# C24-C28: sums, products, conjugates, transposes and norms of tensor-valued objects
-/

set_option linter.unusedSectionVars false

namespace Verif

namespace TVal

/-! ## C24 addition -/

section Add

variable {R : Type} [CommSemiring R] [Star R]

theorem shape_sum_pair {a b : TVal R} {ia ib : Nm} {sh : List Nat} (ha : a.shape = some (sh.map some))
    (hb : b.shape = some (sh.map some)) : (TVal.sum [(ia, a), (ib, b)]).shape = some (sh.map some) := by
  rw [shape]
  simp only [termsShape, ha, hb]
  clear ha hb
  induction sh with
  | nil => rfl
  | cons d ds ih => simp [mergeDims, ih]

theorem add_terms {ia ib : Nm} {a b : TVal R} (hne : ia ≠ ib) (hs : Compatible ([a, b].filterMap TVal.shape)) :
    ∃ s, add ia a ib b = .ok (.sum s) ∧ s = [(ia, a), (ib, b)] := by
  have h1 : ∃ s, ({} : TSum (TVal R)).addTerm none ia a = (s, .ok ia) ∧ s.terms = [(ia, a)] ∧ s.Good := by
    have hg : ({} : TSum (TVal R)).Good := fun c hc => by simp at hc
    cases hsa : a.shape with
    | none =>
      refine ⟨⟨[(ia, a)], none⟩, ?_, rfl, fun c hc => by simp at hc⟩
      simp [TSum.addTerm, Dict.has, shape_def, hsa, Dict.set]
    | some sa =>
      refine ⟨⟨[(ia, a)], some (some sa)⟩, ?_, rfl, fun c hc => ?_⟩
      · simp [TSum.addTerm, Dict.has, shape_def, hsa, Dict.set, TSum.shapeProp, TSum.scan, TSum.updateShape]
      · simp only [Option.some.injEq] at hc
        subst hc
        simp [TSum.MergeOf, TSum.shapesOf, shape_def, hsa, IsMerge]
  obtain ⟨s, h1, h2, h3⟩ := h1
  have hh : s.terms.has ib = false := by
    rw [h2]; simp [Dict.has, Dict.get?_cons, hne]
  have hset : s.terms.set ib b = [(ia, a), (ib, b)] := by
    rw [h2]; simp [Dict.set, hne]
  unfold add
  rw [h1]
  dsimp only
  cases hsb : b.shape with
  | none =>
    refine ⟨_, ?_, rfl⟩
    simp [TSum.addTerm, hh, shape_def, hsb, hset]
  | some sb =>
    refine ⟨_, ?_, rfl⟩
    obtain ⟨k1, k2, k3⟩ := TSum.shapeProp_spec h3
    have hss : TSum.shapesOf s.terms ++ [sb] = [a, b].filterMap TVal.shape := by
      rw [h2]; cases hsa : a.shape <;> simp [TSum.shapesOf, shape_def, hsa, hsb]
    cases hp : s.shapeProp with
    | mk s1 r =>
      rw [hp] at k1 k3
      have k1 : s1.terms = s.terms := k1
      cases r with
      | error e =>
        exact absurd (TSum.Compatible.mono (hss ▸ hs) fun x hx => List.mem_append_left _ hx) k3.2.1
      | ok c =>
        cases hu : (TSum.updateShape c (some sb)).2 with
        | error e =>
          exact absurd (hss ▸ hs) (TSum.updateShape_error k3.1 hu).2
        | ok c' =>
          have : TSum.updateShape c (some sb) = ((TSum.updateShape c (some sb)).1, .ok c') := Prod.ext rfl hu
          simp only [TSum.addTerm, Option.getD_none, hh, Bool.false_eq_true, if_false, shape_def, hsb, hp]
          rw [this]
          dsimp only
          rw [k1, hset]

/-- C24: `a + b` of two different objects is an object whose entries are the sums of the entries (any
tensor-valued objects, whose shapes, as far as known, do not contradict each other).  Partial: for the same object
twice see `c24_same_object_violated`. -/
theorem c24_add_partial {ia ib : Nm} {a b : TVal R} (hne : ia ≠ ib)
    (hs : Compatible ([a, b].filterMap TVal.shape)) :
    ∃ c, add ia a ib b = .ok c ∧ ∀ idx, c.val idx = a.val idx + b.val idx := by
  obtain ⟨s, h1, rfl⟩ := add_terms hne hs
  refine ⟨_, h1, fun idx => ?_⟩
  rw [val]
  show valSum _ _ = _
  rw [valSum_eq]
  simp

/-- `c24_add_partial` on two vectors. -/
example : ∃ c : TVal Nat, add (.int 0) (arrVal [2] fun i => i.sum + 1) (.int 1) (arrVal [2] fun i => i.sum + 3) = .ok c ∧
    c.val [1] = 6 := by
  obtain ⟨c, h1, h2⟩ := c24_add_partial (ia := .int 0) (ib := .int 1)
    (a := (arrVal [2] fun i => i.sum + 1 : TVal Nat)) (b := arrVal [2] fun i => i.sum + 3) (by decide) (by
      intro a ha b hb
      simp only [List.filterMap_cons, shape, arrVal, List.map_cons, List.map_nil, List.filterMap_nil,
        List.mem_cons, List.not_mem_nil, or_false, or_self] at ha hb
      subst ha; subst hb
      exact ⟨rfl, fun i d d' h h' => by rw [h] at h'; simpa using h'⟩)
  exact ⟨c, h1, by rw [h2]; simp [arrVal, val]⟩

/-- C24 for a sum of any number of terms: the entries are the sums of the entries of the terms. -/
theorem c24_sum (ts : List (Nm × TVal R)) (idx : List Nat) :
    (TVal.sum ts).val idx = (ts.map fun p => p.2.val idx).sum := by
  rw [val]
  exact valSum_eq _ _

theorem terms_shapeProp (s : TSum (TVal R)) : s.shapeProp.1.terms = s.terms := by
  rw [TSum.shapeProp]
  split
  · rfl
  · split <;> rfl

theorem sum_set (idx : List Nat) : ∀ (ts : Dict Nm (TVal R)) (n : Nm) (t u : TVal R), ts.get? n = some u →
    ((ts.set n t).map fun p => p.2.val idx).sum + u.val idx = (ts.map fun p => p.2.val idx).sum + t.val idx
  | [], n, t, u, h => by cases h
  | (m, v) :: ts, n, t, u, h => by
    rw [Dict.get?_cons] at h
    rw [Dict.set]
    by_cases hm : m = n
    · rw [if_pos hm] at h ⊢
      cases h
      simp only [List.map_cons, List.sum_cons]
      rw [add_right_comm, add_comm (t.val idx), add_right_comm]
    · rw [if_neg hm] at h ⊢
      have := sum_set idx ts n t u h
      simp only [List.map_cons, List.sum_cons]
      rw [add_assoc, this, add_assoc]

theorem sum_del (idx : List Nat) : ∀ (ts : Dict Nm (TVal R)) (n : Nm) (u : TVal R), ts.keys.Nodup → ts.get? n = some u →
    ((ts.del n).map fun p => p.2.val idx).sum + u.val idx = (ts.map fun p => p.2.val idx).sum
  | [], n, u, _, h => by cases h
  | (m, v) :: ts, n, u, hn, h => by
    rw [Dict.get?_cons] at h
    have hn' := List.nodup_cons.mp hn
    by_cases hm : m = n
    · rw [if_pos hm] at h
      cases h
      have : Dict.del ((m, v) :: ts) n = ts := by
        rw [Dict.del, List.filter_cons_of_neg (by simpa using hm)]
        refine List.filter_eq_self.mpr fun p hp => ?_
        simp only [ne_eq, decide_not, Bool.not_eq_eq_eq_not, Bool.not_true, decide_eq_false_iff_not]
        intro hpn
        exact hn'.1 (List.mem_map.mpr ⟨p, hp, hpn.trans hm.symm⟩)
      rw [this]
      simp only [List.map_cons, List.sum_cons]
      rw [add_comm]
    · rw [if_neg hm] at h
      have : Dict.del ((m, v) :: ts) n = (m, v) :: Dict.del ts n := by
        rw [Dict.del, List.filter_cons_of_pos (by simpa using hm)]; rfl
      rw [this]
      have := sum_del idx ts n u hn'.2 h
      simp only [List.map_cons, List.sum_cons]
      rw [add_assoc, this]

theorem addTerm_terms (s : TSum (TVal R)) (name : Option Nm) (ident : Nm) (t : TVal R) :
    match s.addTerm name ident t with
    | (s', .ok n) => n = name.getD ident ∧ n ∉ s.terms.keys ∧ s'.terms = s.terms ++ [(n, t)]
    | (s', .error _) => s'.terms = s.terms := by
  rw [TSum.addTerm]
  by_cases hh : s.terms.has (name.getD ident) = true
  · rw [if_pos hh]
  · rw [if_neg hh]
    have hk : name.getD ident ∉ s.terms.keys := fun h => hh (Dict.has_iff.mpr h)
    cases HasShape.shape t with
    | none => exact ⟨rfl, hk, Dict.set_eq_append hk t⟩
    | some sh =>
      have h1 := terms_shapeProp s
      cases hp : s.shapeProp with
      | mk s1 r =>
        rw [hp] at h1
        cases r with
        | error e => exact h1
        | ok c =>
          dsimp only
          cases TSum.updateShape c (some sh) with
          | mk c1 r =>
            cases r with
            | error e => exact h1
            | ok c' =>
              refine ⟨rfl, hk, ?_⟩
              show Dict.set s1.terms _ t = _
              rw [show s1.terms = s.terms from h1]
              exact Dict.set_eq_append hk t

theorem step_nodup (s : TSum (TVal R)) (op : TSum.SumOp (TVal R)) (h : s.terms.keys.Nodup) :
    (s.step op).1.terms.keys.Nodup := by
  cases op with
  | addTerm name ident t =>
    have := addTerm_terms s name ident t
    rw [TSum.step]
    cases hr : s.addTerm name ident t with
    | mk s' r =>
      rw [hr] at this
      cases r with
      | error e => show s'.terms.keys.Nodup; rw [show s'.terms = _ from this]; exact h
      | ok n =>
        show s'.terms.keys.Nodup
        rw [this.2.2, ← Dict.set_eq_append this.2.1]
        exact Dict.nodup_keys_set h _ _
  | updateTerm n t =>
    rw [TSum.step, TSum.updateTerm]; dsimp only
    split
    · exact Dict.nodup_keys_set h _ _
    · exact h
  | removeTerm n =>
    rw [TSum.step, TSum.removeTerm]; dsimp only
    split
    · exact Dict.nodup_keys_del h _
    · exact h
  | shape => rw [TSum.step]; dsimp only; rw [terms_shapeProp]; exact h
  | isValid =>
    rw [TSum.step, TSum.isValid]; dsimp only
    have := terms_shapeProp s
    cases hp : s.shapeProp with
    | mk s1 r => rw [hp] at this; cases r <;> (show s1.terms.keys.Nodup; rw [show s1.terms = _ from this]; exact h)
  | alter n t => rw [TSum.step]; dsimp only; rw [Dict.keys_modify]; exact h

theorem run_nodup : ∀ (ops : List (TSum.SumOp (TVal R))) (s : TSum (TVal R)), s.terms.keys.Nodup →
    (s.run ops).terms.keys.Nodup
  | [], _, h => h
  | op :: ops, s, h => run_nodup ops _ (step_nodup s op h)

/-- C24 for the editing calls, after any history of calls on a new sum: an accepted `add_term` adds the entries of the
new term and an `add_term` that raises leaves the entries alone; `update_term` exchanges the entries of the old term for
those of the new one; `remove_term` takes away the entries of the term it returns; asking for the shape changes
nothing. -/
theorem c24_edits (ops : List (TSum.SumOp (TVal R))) (idx : List Nat) :
    let s := ({} : TSum (TVal R)).run ops
    let v := fun s : TSum (TVal R) => (TVal.sum s.terms).val idx
    (∀ name ident t, match s.addTerm name ident t with
      | (s', .ok _) => v s' = v s + t.val idx
      | (s', .error _) => v s' = v s) ∧
    (∀ n t, match s.updateTerm n t with
      | (s', .ok _) => ∃ u, s.terms.get? n = some u ∧ v s' + u.val idx = v s + t.val idx
      | (s', .error _) => n ∉ s.terms.keys ∧ v s' = v s) ∧
    (∀ n, match s.removeTerm n with
      | (s', .ok u) => v s' + u.val idx = v s
      | (s', .error _) => n ∉ s.terms.keys ∧ v s' = v s) ∧
    v s.shapeProp.1 = v s := by
  intro s v
  have hn : s.terms.keys.Nodup := run_nodup ops {} (by simp [Dict.keys])
  have hv : ∀ s, v s = (s.terms.map fun p => p.2.val idx).sum := fun s => c24_sum s.terms idx
  refine ⟨fun name ident t => ?_, fun n t => ?_, fun n => ?_, ?_⟩
  · have := addTerm_terms s name ident t
    cases hr : s.addTerm name ident t with
    | mk s' r =>
      rw [hr] at this
      cases r with
      | error e => show v s' = v s; rw [hv, hv, show s'.terms = _ from this]
      | ok n =>
        show v s' = v s + _
        rw [hv, hv, this.2.2]
        simp
  · rw [TSum.updateTerm]
    by_cases hh : s.terms.has n = true
    · rw [if_pos hh]
      obtain ⟨u, hu⟩ := Dict.exists_get? (Dict.has_iff.mp hh)
      refine ⟨u, hu, ?_⟩
      rw [hv, hv]
      exact sum_set idx _ _ _ _ hu
    · rw [if_neg hh]
      exact ⟨fun h => hh (Dict.has_iff.mpr h), rfl⟩
  · rw [TSum.removeTerm]
    cases hu : s.terms.get? n with
    | none => exact ⟨Dict.get?_eq_none.mp hu, rfl⟩
    | some u =>
      show v _ + _ = v _
      rw [hv, hv]
      exact sum_del idx _ _ _ hn hu
  · rw [hv, hv, terms_shapeProp]

/-- `c24_edits` on a history with an accepted, a rejected and an updating call: 1 + 2, then 2 replaced by 7. -/
example :
    let a : TVal Int := arrVal [2] fun _ => 1
    let s := ({} : TSum (TVal Int)).run [.addTerm none (.int 0) a, .addTerm (some (.int 0)) (.int 3) a,
      .addTerm none (.int 1) (arrVal [2] fun _ => 2), .updateTerm (.int 1) (arrVal [2] fun _ => 7)]
    s.terms.keys = [.int 0, .int 1] ∧ (TVal.sum s.terms).val [0] = 8 := by
  decide +kernel

/-- C24 fails for the same object twice: `t + t` raises a `KeyError` (both terms get the same name), whatever `t`. -/
theorem c24_same_object_violated (i : Nm) (t : TVal R) : add i t i t = .error .key := by
  have h1 : ∃ s, ({} : TSum (TVal R)).addTerm none i t = (s, .ok i) ∧ s.terms = [(i, t)] := by
    cases hsa : t.shape with
    | none =>
      refine ⟨⟨[(i, t)], none⟩, ?_, rfl⟩
      simp [TSum.addTerm, Dict.has, shape_def, hsa, Dict.set]
    | some sa =>
      refine ⟨⟨[(i, t)], some (some sa)⟩, ?_, rfl⟩
      simp [TSum.addTerm, Dict.has, shape_def, hsa, Dict.set, TSum.shapeProp, TSum.scan, TSum.updateShape]
  obtain ⟨s, h1, h2⟩ := h1
  unfold add
  rw [h1]
  simp [TSum.addTerm, h2, Dict.has, Dict.get?_cons]

end Add

/-! ## C25 products -/

section Mul

variable {R : Type} [CommSemiring R] [Star R]

theorem shape_range {tn : TN (TVal R)} {S op : List Nat} (hd : HasDims tn S) (ho : tn.openE = op.map fun k : Nat => Nm.int k)
    (hop : ∀ k ∈ op, k < S.length) : (ofTN tn).shape = some ((op.map fun k => S[k]?.getD 0).map some) := by
  unfold ofTN
  rw [shape]
  show TN.shape? tn = _
  unfold TN.shape?
  rw [mapM_some (g := fun e => some (listAsg S e)) fun e he => ?_, ho, List.map_map, List.map_map]
  · rfl
  · rw [ho] at he
    obtain ⟨k, hk, rfl⟩ := List.mem_map.1 he
    have h1 := List.getElem?_eq_getElem (hop k hk)
    rw [hd.2 k _ h1, listAsg_int, h1]
    rfl

theorem inRange_get {sh l : List Nat} (h : InRange sh l) {k d : Nat} (hk : sh[k]? = some d) : l[k]?.getD 0 < d := by
  induction h generalizing k with
  | nil => simp at hk
  | cons h1 _ ih =>
    cases k with
    | zero => simp at hk ⊢; omega
    | succ k => simpa using ih (by simpa using hk)

theorem factor_some (legs : List Nm) (t : TVal R) (fr : Bool) :
    (NodeRec.factor val ⟨legs, some t, fr⟩ : Factor Nm R) = ⟨legs, t.val⟩ := rfl

/-- C25, what `a * b` is: the two operands share the edges `0, 1, ...`, so the entry at `i ++ j` is `a[i] * b[j]` if
`i` and `j` agree at the positions they both have, and zero otherwise. -/
theorem c25_actual {ia ib : Nm} {a b : TVal R} {sa sb : List Nat} (hne : ia ≠ ib)
    (ha : a.shape = some (sa.map some)) (hb : b.shape = some (sb.map some)) (hov : Overlap sa sb) :
    ∃ c, mul ia a ib b = .ok c ∧ c.shape = some ((sa ++ sb).map some) ∧
      ∀ i j, InRange sa i → InRange sb j →
        c.val (i ++ j) = if Overlap i j then a.val i * b.val j else 0 := by
  obtain ⟨tn, tn', h1, h2, h3, h4, h5⟩ := twoNodes (τ := TVal R) (a := a) (b := b) (o := true) hne ha hb hov
  rw [if_pos rfl] at h5
  have hr : mul ia a ib b = .ok (ofTN tn') := by unfold mul; rw [h1]; dsimp only; rw [h2]
  have la : sa.length ≤ (longer sa sb).length := by
    have := congrArg List.length (longer_left hov); rw [List.length_take] at this; omega
  have lb : sb.length ≤ (longer sa sb).length := by
    have := congrArg List.length (longer_right hov); rw [List.length_take] at this; omega
  refine ⟨_, hr, ?_, fun i j hi hj => ?_⟩
  · rw [shape_range (op := List.range sa.length ++ List.range sb.length) h3 (by rw [h5, List.map_append]; rfl) (by
      intro k hk
      rcases List.mem_append.1 hk with h | h <;> (have := List.mem_range.1 h; omega))]
    congr 2
    rw [List.map_append]
    have key : ∀ s : List Nat, s = (longer sa sb).take s.length →
        ((List.range s.length).map fun k => (longer sa sb)[k]?.getD 0) = s := by
      intro s hs
      apply List.ext_getElem?
      intro k
      rw [List.getElem?_map]
      by_cases hk : k < s.length
      · rw [List.getElem?_range hk, Option.map_some, List.getElem?_eq_getElem hk]
        have : s[k]? = (longer sa sb)[k]? := by
          conv_lhs => rw [hs]
          rw [List.getElem?_take, if_pos hk]
        rw [← this, List.getElem?_eq_getElem hk]; rfl
      · rw [List.getElem?_eq_none (by simpa using hk), List.getElem?_eq_none (by omega)]; rfl
    rw [key sa (longer_left hov), key sb (longer_right hov)]
  · rw [val_ofTN]
    have hli : i.length = sa.length := hi.length_eq
    have hlj : j.length = sb.length := hj.length_eq
    have hfs : tn'.factors val = [⟨rangeLegs sa.length, a.val⟩, ⟨rangeLegs sb.length, b.val⟩] := by
      unfold TN.factors; rw [h4]; rfl
    unfold TN.value
    rw [hfs, h5]
    by_cases hov' : Overlap i j
    · rw [if_pos hov']
      have e1 : (rangeLegs sa.length).map (listAsg (longer i j)) = i := by
        rw [← hli, rangeLegs_map _ (by
          have := congrArg List.length (longer_left hov'); rw [List.length_take] at this; omega)]
        exact (longer_left hov').symm
      have e2 : (rangeLegs sb.length).map (listAsg (longer i j)) = j := by
        rw [← hlj, rangeLegs_map _ (by
          have := congrArg List.length (longer_right hov'); rw [List.length_take] at this; omega)]
        exact (longer_right hov').symm
      have e3 : i ++ j = (rangeLegs sa.length ++ rangeLegs sb.length).map (listAsg (longer i j)) := by
        rw [List.map_append, e1, e2]
      rw [e3, einsum_at (inner := []) ?_ List.nodup_nil ?_]
      · simp [prodAt, Factor.at, e1, e2]
      · intro e he
        rcases List.mem_append.1 he with he | he
        · obtain ⟨k, hk, rfl⟩ := mem_rangeLegs.1 he
          have hk1 := List.getElem?_eq_getElem hk
          have hkS : (longer sa sb)[k]? = some sa[k] := by
            rw [← hk1]; conv_rhs => rw [longer_left hov]
            rw [List.getElem?_take, if_pos hk]
          rw [h3.dom hkS, Finset.mem_range, listAsg_int]
          have : (longer i j)[k]? = i[k]? := by
            conv_rhs => rw [longer_left hov']
            rw [List.getElem?_take, if_pos (by omega)]
          rw [this]
          exact inRange_get hi hk1
        · obtain ⟨k, hk, rfl⟩ := mem_rangeLegs.1 he
          have hk1 := List.getElem?_eq_getElem hk
          have hkS : (longer sa sb)[k]? = some sb[k] := by
            rw [← hk1]; conv_rhs => rw [longer_right hov]
            rw [List.getElem?_take, if_pos hk]
          rw [h3.dom hkS, Finset.mem_range, listAsg_int]
          have : (longer i j)[k]? = j[k]? := by
            conv_rhs => rw [longer_right hov']
            rw [List.getElem?_take, if_pos (by omega)]
          rw [this]
          exact inRange_get hj hk1
      · intro e
        simp only [List.not_mem_nil, List.mem_cons, or_false, exists_eq_or_imp, exists_eq_left, List.mem_append,
          false_iff, not_and, not_not]
        exact id
    · rw [if_neg hov']
      refine einsum_none fun f hf => hov' fun k d d' hk hk' => ?_
      rw [List.map_append] at hf
      obtain ⟨hf1, hf2⟩ := List.append_inj hf (by simp [rangeLegs_length, hli])
      have g1 : k < sa.length := by have := (List.getElem?_eq_some_iff.1 hk).1; omega
      have g2 : k < sb.length := by have := (List.getElem?_eq_some_iff.1 hk').1; omega
      rw [← hf1, List.getElem?_map, rangeLegs_get g1] at hk
      rw [← hf2, List.getElem?_map, rangeLegs_get g2] at hk'
      simp at hk hk'
      omega

/-- C25 when one of the operands is a scalar: `a * b` is the product.  Partial: for operands that both have indices
see `c25_vectors_violated`. -/
theorem c25_scalar_partial {ia ib : Nm} {a b : TVal R} {sa sb : List Nat} (hne : ia ≠ ib)
    (ha : a.shape = some (sa.map some)) (hb : b.shape = some (sb.map some)) (h0 : sa = [] ∨ sb = []) :
    ∃ c, mul ia a ib b = .ok c ∧ c.shape = some ((sa ++ sb).map some) ∧
      ∀ i j, InRange sa i → InRange sb j → c.val (i ++ j) = a.val i * b.val j := by
  obtain ⟨c, h1, h2, h3⟩ := c25_actual hne ha hb (by
    intro k d d' h1 h2
    rcases h0 with rfl | rfl
    · simp at h1
    · simp at h2)
  refine ⟨c, h1, h2, fun i j hi hj => ?_⟩
  rw [h3 i j hi hj, if_pos]
  intro k d d' h1 h2
  rcases h0 with rfl | rfl
  · cases hi; simp at h1
  · cases hj; simp at h2

/-- `c25_actual` on a vector and a matrix with the same leading dimension. -/
example : ∃ c : TVal Nat, mul (.int 0) (arrVal [2] fun i => i.sum + 1) (.int 1) (arrVal [2, 3] fun i => i.sum + 3) = .ok c ∧
    c.shape = some [some 2, some 2, some 3] := by
  obtain ⟨c, h1, h2, -⟩ := c25_actual (ia := .int 0) (ib := .int 1) (sa := [2]) (sb := [2, 3])
    (a := (arrVal [2] fun i => i.sum + 1 : TVal Nat)) (b := arrVal [2, 3] fun i => i.sum + 3) (by decide)
    (by simp [arrVal, shape]) (by simp [arrVal, shape]) (by
      intro k d d' h h'
      cases k with
      | zero => simp at h h'; omega
      | succ k => simp at h)
  exact ⟨c, h1, h2⟩

/-- `c25_scalar_partial` on a vector and a scalar. -/
example : ∃ c : TVal Nat, mul (.int 0) (arrVal [2] fun i => i.sum + 1) (.int 1) (scalar 5) = .ok c ∧ c.val [1] = 10 := by
  obtain ⟨c, h1, -, h3⟩ := c25_scalar_partial (ia := .int 0) (ib := .int 1) (sa := [2]) (sb := [])
    (a := (arrVal [2] fun i => i.sum + 1 : TVal Nat)) (b := scalar 5) (by decide)
    (by simp [arrVal, shape]) (by simp [scalar, shape]) (Or.inr rfl)
  exact ⟨c, h1, h3 [1] [] (by simp [InRange]) List.Forall₂.nil⟩

/-- C25 fails for two vectors: the product of (1, 2) and (3, 4) has a zero at (0, 1). -/
theorem c25_vectors_violated : ∃ c : TVal Nat,
    mul (.int 0) (arrVal [2] fun i => i.sum + 1) (.int 1) (arrVal [2] fun i => i.sum + 3) = .ok c ∧
    c.shape = some [some 2, some 2] ∧ c.val [0, 1] = 0 ∧ c.val [1, 1] = 8 :=
  ⟨_, rfl, by decide, by decide, by decide⟩

/-- C25 fails for operands whose leading dimensions differ: an `AssertionError`. -/
theorem c25_dims_violated :
    mul (.int 0) (arrVal [2] fun i => i.sum + 1 : TVal Nat) (.int 1) (arrVal [3] fun i => i.sum + 3) = .error .assertion :=
  rfl

/-- C25 fails for the same object twice, even for scalars: the second node replaces the first, so the "square" of 3
is 3. -/
theorem c25_same_object_violated : ∃ c : TVal Nat,
    mul (.int 0) (scalar 3) (.int 0) (scalar 3) = .ok c ∧ c.val [] = 3 := ⟨_, rfl, by decide⟩

end Mul

section Neg

variable {R : Type} [CommRing R] [Star R]

/-- C24: `-a` has the shape of `a` and the negated entries. -/
theorem c24_neg {ia i1 : Nm} {a : TVal R} {sh : List Nat} (hne : ia ≠ i1) (ha : a.shape = some (sh.map some)) :
    ∃ c, neg ia a i1 = .ok c ∧ c.shape = some (sh.map some) ∧ ∀ idx, InRange sh idx → c.val idx = - a.val idx := by
  obtain ⟨c, h1, h2, h3⟩ := c25_scalar_partial (b := scalar (-1 : R)) (sb := []) hne ha (by simp [scalar, shape])
    (Or.inr rfl)
  refine ⟨c, h1, by simpa using h2, fun idx hi => ?_⟩
  have := h3 idx [] hi List.Forall₂.nil
  rw [List.append_nil] at this
  rw [this]
  simp [scalar, val]

/-- C24: `a - b` has the shape of the operands and the differences as entries.  Partial: `a` must not carry the same
identifier as the (new) object `-b`, which never happens as identifiers are never given out twice. -/
theorem c24_sub_partial {ia ib i1 i2 : Nm} {a b : TVal R} {sh : List Nat} (h1 : ib ≠ i1) (h2 : ia ≠ i2)
    (ha : a.shape = some (sh.map some)) (hb : b.shape = some (sh.map some)) :
    ∃ c, sub ia a ib b i1 i2 = .ok c ∧ ∀ idx, InRange sh idx → c.val idx = a.val idx - b.val idx := by
  obtain ⟨b', k1, k2, k3⟩ := c24_neg h1 hb
  obtain ⟨c, m1, m2⟩ := c24_add_partial (a := a) (b := b') h2 (by
    intro t ht t' ht'
    simp only [List.filterMap_cons, ha, k2, List.filterMap_nil, List.mem_cons, or_self, List.not_mem_nil, or_false] at ht ht'
    subst ht; subst ht'
    refine ⟨rfl, fun i d d' h h' => ?_⟩
    rw [h] at h'; simpa using h')
  refine ⟨c, by unfold sub; rw [k1]; exact m1, fun idx hi => ?_⟩
  rw [m2, k3 idx hi, sub_eq_add_neg]

/-- `c24_sub_partial` on two vectors. -/
example : ∃ c : TVal Int, sub (R := Int) (.int 0) (arrVal [2] fun i => (i.sum : Int) + 1) (.int 1) (arrVal [2] fun _ => 5) (.int 2) (.int 3) =
    .ok c ∧ c.val [1] = -3 := by
  obtain ⟨c, h1, h2⟩ := c24_sub_partial (ia := .int 0) (ib := .int 1) (i1 := .int 2) (i2 := .int 3) (sh := [2])
    (a := (arrVal [2] fun i => (i.sum : Int) + 1 : TVal Int)) (b := arrVal [2] fun _ => 5) (by decide) (by decide)
    (by simp [arrVal, shape]) (by simp [arrVal, shape])
  exact ⟨c, h1, by rw [h2 [1] (by simp [InRange])]; simp [arrVal, val]⟩

end Neg

end TVal

end Verif
