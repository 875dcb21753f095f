import Verif.Props.Algebra
/-!
# C26-C28: conjugates, transposes and norms
-/

set_option linter.unusedSectionVars false

namespace Verif

/-! ## C26 conjugation -/

section Star

variable {R : Type} [CommSemiring R] [StarRing R]

/-- The conjugate factor. -/
def Factor.conj {E : Type} (f : Factor E R) : Factor E R := ⟨f.legs, fun i => star (f.ten i)⟩

theorem star_sumOver {E : Type} [DecidableEq E] (dom : E → Finset Nat) (es : List E) (f : (E → Nat) → R) (a : E → Nat) :
    star (sumOver dom es f a) = sumOver dom es (fun b => star (f b)) a := by
  induction es generalizing a with
  | nil => rfl
  | cons e es ih =>
    rw [sumOver_cons, sumOver_cons, star_sum]
    exact Finset.sum_congr rfl fun x _ => ih _

theorem star_prodAt {E : Type} (fs : List (Factor E R)) (a : E → Nat) :
    star (prodAt fs a) = prodAt (fs.map Factor.conj) a := by
  induction fs with
  | nil => simp [prodAt]
  | cons f fs ih =>
    have h1 : ∀ (g : Factor E R) gs, prodAt (g :: gs) a = g.at a * prodAt gs a := fun _ _ => by simp [prodAt]
    rw [List.map_cons, h1, h1, star_mul', ih]; rfl

theorem star_einsum {E : Type} [DecidableEq E] (dom : E → Finset Nat) (fs : List (Factor E R)) (opn : List E)
    (idx : List Nat) : star (einsum dom fs opn idx) = einsum dom (fs.map Factor.conj) opn idx := by
  unfold einsum
  have hu : usedEdges (fs.map Factor.conj) opn = usedEdges fs opn := by
    unfold usedEdges; rw [List.flatMap_map]; rfl
  rw [star_sumOver, hu]
  refine sumOver_congr fun b => ?_
  split
  · rw [star_prodAt]
  · exact star_zero _

namespace TVal

mutual
/-- Conjugation of an object: shape kept, entries conjugated. -/
theorem conj_spec : ∀ (t t' : TVal R), conj t = .ok t' → t'.shape = t.shape ∧ ∀ idx, t'.val idx = star (t.val idx)
  | .ten none, t', h => by
    rw [conj] at h; cases h
    exact ⟨rfl, fun idx => by simp [val]⟩
  | .ten (some a), t', h => by
    rw [conj] at h; cases h
    exact ⟨by simp [shape, Arr.conj], fun idx => by simp [val, Arr.conj]⟩
  | .sum ts, t', h => by
    rw [conj] at h
    split at h
    · cases h
    · cases hc : conjTerms ts with
      | error e => rw [hc] at h; cases h
      | ok ts' =>
        rw [hc] at h; cases h
        obtain ⟨h1, h2⟩ := conjTerms_spec ts ts' hc
        refine ⟨by rw [shape, shape, h1], fun idx => ?_⟩
        rw [val, val]; exact h2 idx
  | .net ns es adj op c, t', h => by
    rw [conj] at h
    cases hc : conjNodes ns with
    | error e => rw [hc] at h; cases h
    | ok ns' =>
      rw [hc] at h; cases h
      have h1 := conjNodes_spec ns ns' hc
      refine ⟨by rw [shape, shape]; rfl, fun idx => ?_⟩
      rw [val, val]
      show einsum _ _ _ _ = star (einsum _ _ _ _)
      rw [star_einsum, h1]; rfl
  | .view t, t', h => by
    rw [conj] at h; cases h
    refine ⟨by rw [shape, shape], fun idx => ?_⟩
    rw [val]
theorem conjTerms_spec : ∀ (ts ts' : List (Nm × TVal R)), conjTerms ts = .ok ts' →
    (∀ c, termsShape ts' c = termsShape ts c) ∧ ∀ idx, valSum ts' idx = star (valSum ts idx)
  | [], ts', h => by
    rw [conjTerms] at h; cases h
    exact ⟨fun _ => rfl, fun _ => by simp [valSum]⟩
  | (n, t) :: ts, ts', h => by
    rw [conjTerms] at h
    split at h
    · rename_i t1 ts1 h1 h2
      cases h
      obtain ⟨a1, a2⟩ := conj_spec t t1 h1
      obtain ⟨b1, b2⟩ := conjTerms_spec ts ts1 h2
      refine ⟨fun c => ?_, fun idx => ?_⟩
      · cases hs : t.shape <;> cases c <;> simp only [termsShape, a1, hs, b1]
      · rw [valSum, valSum, star_add, a2, b2]
    · cases h
    · cases h
theorem conjNodes_spec : ∀ (ns ns' : List (Nm × NodeRec (TVal R))), conjNodes ns = .ok ns' →
    valFactors ns' = (valFactors ns).map Factor.conj
  | [], ns', h => by
    rw [conjNodes] at h; cases h
    simp [valFactors]
  | (n, ⟨legs, none, fr⟩) :: ns, ns', h => by
    rw [conjNodes] at h; cases h
  | (n, ⟨legs, some t, fr⟩) :: ns, ns', h => by
    rw [conjNodes] at h
    split at h
    · rename_i t1 ts1 h1 h2
      cases h
      obtain ⟨-, a2⟩ := conj_spec t t1 h1
      rw [valFactors, valFactors, conjNodes_spec ns ts1 h2]
      simp only [valOpt, List.map_cons, Factor.conj]
      congr 2
      funext idx; exact a2 idx
    · cases h
    · cases h
end

mutual
/-- Every node carries a tensor, the terms of every sum have distinct names and shapes that do not contradict each
other. -/
def Whole : TVal R → Prop
  | .ten _ => True
  | .net ns _ _ _ _ => WholeNodes ns
  | .sum ts => (ts.map Prod.fst).Nodup ∧ Compatible (TSum.shapesOf ts) ∧ WholeTerms ts
  | .view _ => True
def WholeNodes : List (Nm × NodeRec (TVal R)) → Prop
  | [] => True
  | (_, ⟨_, none, _⟩) :: _ => False
  | (_, ⟨_, some t, _⟩) :: ns => Whole t ∧ WholeNodes ns
def WholeTerms : List (Nm × TVal R) → Prop
  | [] => True
  | (_, t) :: ts => Whole t ∧ WholeTerms ts
end

theorem addTerm_total {τ : Type} [HasShape τ] {s : TSum τ} (hg : s.Good) {n : Nm} {t : τ} (hn : n ∉ s.terms.map Prod.fst)
    (hc : Compatible (TSum.shapesOf (s.terms ++ [(n, t)]))) :
    ∃ s', s.addTerm (some n) n t = (s', .ok n) ∧ s'.terms = s.terms ++ [(n, t)] ∧ s'.Good := by
  have hh : s.terms.has n = false := by
    cases h : s.terms.has n with
    | false => rfl
    | true => exact absurd (Dict.has_iff.1 h) hn
  have hset := TSum.set_fresh hh t
  obtain ⟨k1, k2, k3⟩ := TSum.shapeProp_spec hg
  have key : ∃ s', s.addTerm (some n) n t = (s', .ok n) ∧ s'.terms = s.terms ++ [(n, t)] := by
    cases hs : HasShape.shape t with
    | none =>
      refine ⟨{ s with terms := s.terms.set n t }, ?_, hset⟩
      simp [TSum.addTerm, hh, hs]
    | some sh =>
      have hss : TSum.shapesOf (s.terms ++ [(n, t)]) = TSum.shapesOf s.terms ++ [sh] := by
        simp [TSum.shapesOf, hs]
      rw [hss] at hc
      cases hp : s.shapeProp with
      | mk s1 r =>
        rw [hp] at k1 k3
        have k1 : s1.terms = s.terms := k1
        cases r with
        | error e => exact absurd (TSum.Compatible.mono hc fun x hx => List.mem_append_left _ hx) k3.2.1
        | ok c =>
          cases hu : (TSum.updateShape c (some sh)).2 with
          | error e => exact absurd hc (TSum.updateShape_error k3.1 hu).2
          | ok c' =>
            have : TSum.updateShape c (some sh) = ((TSum.updateShape c (some sh)).1, .ok c') := Prod.ext rfl hu
            refine ⟨⟨s1.terms.set n t, some c'⟩, ?_, by rw [k1]; exact hset⟩
            simp only [TSum.addTerm, Option.getD_some, hh, Bool.false_eq_true, if_false, hs, hp]
            rw [this]
  obtain ⟨s', h1, h2⟩ := key
  refine ⟨s', h1, h2, ?_⟩
  have := TSum.addTerm_good hg (some n) n t
  rw [h1] at this
  exact this (Or.inl (by simp [TSum.step, h1, Except.map]))

theorem copy_total {τ : Type} [HasShape τ] : ∀ (ts : Dict Nm τ) (s : TSum τ), s.Good →
    ((s.terms ++ ts).map Prod.fst).Nodup → Compatible (TSum.shapesOf (s.terms ++ ts)) →
    ∃ s', TSum.copyLoop s ts = .ok s' ∧ s'.terms = s.terms ++ ts
  | [], s, _, _, _ => ⟨s, rfl, by simp⟩
  | (n, t) :: ts, s, hg, hn, hc => by
    have e : s.terms ++ (n, t) :: ts = (s.terms ++ [(n, t)]) ++ ts := by simp
    rw [e] at hn hc
    obtain ⟨s1, h1, h2, h3⟩ := addTerm_total (n := n) (t := t) hg (by
      rw [List.map_append, List.map_append] at hn
      have := (List.nodup_append.1 (List.nodup_append.1 hn).1).2.2
      intro hm
      exact this n hm n (by simp) rfl) (TSum.Compatible.mono hc fun x hx => by
        simp only [TSum.shapesOf, List.filterMap_append, List.mem_append] at hx ⊢
        exact Or.inl hx)
    obtain ⟨s2, m1, m2⟩ := copy_total ts s1 h3 (by rw [h2]; exact hn) (by rw [h2]; exact hc)
    refine ⟨s2, ?_, by rw [m2, h2, e]⟩
    rw [TSum.copyLoop, h1]
    exact m1

mutual
theorem conj_total : ∀ t : TVal R, Whole t → ∃ t', conj t = .ok t'
  | .ten none, _ => ⟨_, by rw [conj]⟩
  | .ten (some a), _ => ⟨_, by rw [conj]⟩
  | .sum ts, h => by
    rw [Whole] at h
    obtain ⟨ts', h1⟩ := conjTerms_total ts h.2.2
    obtain ⟨s, h2, -⟩ := copy_total ts ({} : TSum (TVal R)) (fun c hc => by simp at hc) (by simpa using h.1)
      (by simpa using h.2.1)
    refine ⟨.sum ts', ?_⟩
    rw [conj, show TSum.copy ⟨ts, none⟩ = .ok s from h2]
    simp only [h1]; rfl
  | .net ns es adj op c, h => by
    rw [Whole] at h
    obtain ⟨ns', h1⟩ := conjNodes_total ns h
    exact ⟨.net ns' es adj op 0, by rw [conj, h1]; rfl⟩
  | .view t, _ => ⟨_, by rw [conj]⟩
theorem conjTerms_total : ∀ ts : List (Nm × TVal R), WholeTerms ts → ∃ ts', conjTerms ts = .ok ts'
  | [], _ => ⟨_, by rw [conjTerms]⟩
  | (n, t) :: ts, h => by
    rw [WholeTerms] at h
    obtain ⟨t', h1⟩ := conj_total t h.1
    obtain ⟨ts', h2⟩ := conjTerms_total ts h.2
    exact ⟨(n, t') :: ts', by rw [conjTerms, h1, h2]⟩
theorem conjNodes_total : ∀ ns : List (Nm × NodeRec (TVal R)), WholeNodes ns → ∃ ns', conjNodes ns = .ok ns'
  | [], _ => ⟨_, by rw [conjNodes]⟩
  | (n, ⟨legs, none, fr⟩) :: ns, h => by rw [WholeNodes] at h; exact h.elim
  | (n, ⟨legs, some t, fr⟩) :: ns, h => by
    rw [WholeNodes] at h
    obtain ⟨t', h1⟩ := conj_total t h.1
    obtain ⟨ns', h2⟩ := conjNodes_total ns h.2
    exact ⟨(n, ⟨legs, some t', fr⟩) :: ns', by rw [conjNodes, h1, h2]⟩
end

/-- C26: `~t` succeeds for every object whose nodes carry tensors and whose sums are consistent, has the shape of `t`
and the conjugated entries. -/
theorem c26_conj {t : TVal R} (h : Whole t) :
    ∃ t', conj t = .ok t' ∧ t'.shape = t.shape ∧ ∀ idx, t'.val idx = star (t.val idx) := by
  obtain ⟨t', h1⟩ := conj_total t h
  exact ⟨t', h1, conj_spec t t' h1⟩

/-- `c26_conj` on the network of a sum of an imaginary vector and the conjugate of a vector. -/
example : ∃ t t' : TVal ℂ, (∃ ns es adj op c, t = .net ns es adj op c ∧ ns.length = 1) ∧ conj t = .ok t' ∧
    ∀ idx, t'.val idx = star (t.val idx) := by
  obtain ⟨t', h1, -, h2⟩ := c26_conj (R := ℂ) (t := .net
    [(.int 0, ⟨[.int 0], some (.sum [(.int 1, arrVal [2] fun _ => Complex.I), (.int 2, .view (arrVal [2] fun i => i.sum))]), true⟩)]
    [(.int 0, { dim := some 2 })] [] [.int 0] 0) (by
      simp only [Whole, WholeNodes, WholeTerms, arrVal, and_true]
      refine ⟨by simp, ?_⟩
      intro a ha b hb
      simp only [TSum.shapesOf, List.filterMap_cons, shape_def, shape, List.map_cons, List.map_nil, List.filterMap_nil,
        List.mem_cons, List.not_mem_nil, or_false, or_self] at ha hb
      subst ha; subst hb
      exact ⟨rfl, fun i d d' h h' => by rw [h] at h'; simpa using h'⟩)
  exact ⟨_, t', ⟨_, _, _, _, _, rfl, rfl⟩, h1, h2⟩

/-- C26: conjugating twice gives back the shape and the entries. -/
theorem c26_involution {t t' t'' : TVal R} (h1 : conj t = .ok t') (h2 : conj t' = .ok t'') :
    t''.shape = t.shape ∧ ∀ idx, t''.val idx = t.val idx := by
  obtain ⟨a1, a2⟩ := conj_spec t t' h1
  obtain ⟨b1, b2⟩ := conj_spec t' t'' h2
  exact ⟨b1.trans a1, fun idx => by rw [b2, a2, star_star]⟩

/-- C26: `TensorView(t)`, the lazy conjugate, has the shape of `t` and the conjugated entries, hence is
indistinguishable from `~t`. -/
theorem c26_view {t t' : TVal R} (h : conj t = .ok t') :
    (TVal.view t).shape = t'.shape ∧ ∀ idx, (TVal.view t).val idx = t'.val idx := by
  obtain ⟨a1, a2⟩ := conj_spec t t' h
  refine ⟨by rw [shape, a1], fun idx => ?_⟩
  rw [a2, val]

end TVal

end Star

/-! ## C27 transposition -/

namespace TVal

variable {R : Type} [CommSemiring R] [Star R]

/-- C27: `t % axes` moves the entries: the entry of the result at the permuted index is the entry of `t` at the index.
`axes` must mention every axis. -/
theorem c27_transpose {ident : Nm} {t : TVal R} {sh : List Nat} {axes : List Nat}
    (hs : t.shape = some (sh.map some)) (hperm : axes.Perm (List.range sh.length)) :
    ∃ t', transpose ident t axes = .ok t' ∧ t'.shape = some ((axes.map fun k => sh[k]?.getD 0).map some) ∧
      ∀ idx, InRange sh idx → t'.val (axes.map fun k => idx[k]?.getD 0) = t.val idx := by
  obtain ⟨tn, h1, h2, h3, h4⟩ := oneNode (τ := TVal R) (o := true) (i := ident) (t := t) hs
  rw [if_pos rfl] at h4
  have hlt : ∀ k ∈ axes, k < sh.length := fun k hk => List.mem_range.1 (hperm.mem_iff.1 hk)
  have hm : axes.mapM (fun i => tn.openE[i]?) = some (axes.map fun k : Nat => Nm.int k) := by
    refine mapM_some fun k hk => ?_
    rw [h4, rangeLegs_get (hlt k hk)]
  refine ⟨ofTN { tn with openE := axes.map fun k : Nat => Nm.int k }, ?_, ?_, fun idx hi => ?_⟩
  · unfold transpose; rw [h1]; dsimp only; rw [hm]
  · exact shape_range (tn := { tn with openE := axes.map fun k : Nat => Nm.int k }) h2 rfl hlt
  · rw [val_ofTN]
    unfold TN.value
    have hfs : TN.factors val { tn with openE := axes.map fun k : Nat => Nm.int k } = [⟨rangeLegs sh.length, t.val⟩] := by
      unfold TN.factors; rw [h3]; rfl
    rw [hfs]
    have hli : idx.length = sh.length := hi.length_eq
    have e1 : (axes.map fun k => idx[k]?.getD 0) = (axes.map fun k : Nat => Nm.int k).map (listAsg idx) := by
      rw [List.map_map]
      exact List.map_congr_left fun k _ => (listAsg_int idx k).symm
    have e2 : (rangeLegs sh.length).map (listAsg idx) = idx := by rw [← hli, rangeLegs_map_full]
    rw [e1]
    show einsum _ _ (axes.map fun k : Nat => Nm.int k) _ = _
    rw [einsum_at (inner := []) ?_ List.nodup_nil ?_]
    · simp [prodAt, Factor.at, e2]
    · intro e he
      obtain ⟨k, hk, rfl⟩ := List.mem_map.1 he
      have hk1 := List.getElem?_eq_getElem (hlt k hk)
      rw [show TN.dom { tn with openE := axes.map fun k : Nat => Nm.int k } = tn.dom from rfl, h2.dom hk1,
        Finset.mem_range, listAsg_int]
      exact inRange_get hi hk1
    · intro e
      simp only [List.not_mem_nil, List.mem_cons, or_false, exists_eq_left, false_iff, not_and, not_not]
      intro he
      obtain ⟨k, hk, rfl⟩ := mem_rangeLegs.1 he
      exact List.mem_map.2 ⟨k, hperm.mem_iff.2 (List.mem_range.2 hk), rfl⟩

theorem inRange_axes {sh idx axes : List Nat} (hi : InRange sh idx) (hax : ∀ k ∈ axes, k < sh.length) :
    InRange (axes.map fun k => sh[k]?.getD 0) (axes.map fun k => idx[k]?.getD 0) := by
  induction axes with
  | nil => exact List.Forall₂.nil
  | cons k ks ih =>
    have hk1 := List.getElem?_eq_getElem (hax k (by simp))
    refine List.Forall₂.cons ?_ (ih fun k' hk' => hax k' (by simp [hk']))
    dsimp only
    rw [hk1]
    exact inRange_get hi hk1

/-- C27: transposing by `axes1`, then by `axes2`, is transposing by the composed permutation. -/
theorem c27_compose {i1 i2 : Nm} {t t1 t2 : TVal R} {sh axes1 axes2 : List Nat}
    (hs : t.shape = some (sh.map some)) (hp1 : axes1.Perm (List.range sh.length))
    (hp2 : axes2.Perm (List.range sh.length)) (h1 : transpose i1 t axes1 = .ok t1)
    (h2 : transpose i2 t1 axes2 = .ok t2) :
    t2.shape = some (((axes2.map fun k => axes1[k]?.getD 0).map fun k => sh[k]?.getD 0).map some) ∧
    ∀ idx, InRange sh idx →
      t2.val ((axes2.map fun k => axes1[k]?.getD 0).map fun k => idx[k]?.getD 0) = t.val idx := by
  obtain ⟨t1', k1, k2, k3⟩ := c27_transpose (ident := i1) hs hp1
  rw [h1] at k1; cases k1
  have hl1 : axes1.length = sh.length := by rw [hp1.length_eq, List.length_range]
  obtain ⟨t2', m1, m2, m3⟩ := c27_transpose (ident := i2) (axes := axes2) k2 (by
    rw [List.length_map, hl1]; exact hp2)
  rw [h2] at m1; cases m1
  have hget : ∀ (l : List Nat), (axes2.map fun k => (axes1.map fun k' => l[k']?.getD 0)[k]?.getD 0) =
      (axes2.map fun k => axes1[k]?.getD 0).map fun k => l[k]?.getD 0 := by
    intro l
    rw [List.map_map]
    refine List.map_congr_left fun k hk => ?_
    have hk' : k < axes1.length := by rw [hl1]; exact List.mem_range.1 (hp2.mem_iff.1 hk)
    simp [List.getElem?_map, List.getElem?_eq_getElem hk']
  refine ⟨by rw [m2, hget], fun idx hi => ?_⟩
  rw [← k3 idx hi, ← m3 _ (inRange_axes hi fun k hk => List.mem_range.1 (hp1.mem_iff.1 hk)), hget]

/-- `c27_transpose` on a matrix. -/
example : ∃ t', transpose (.int 7) (arrVal [2, 3] fun i => 10 * (i.getD 0 0) + i.getD 1 0 : TVal Nat) [1, 0] = .ok t' ∧
    t'.val [2, 1] = 12 := by
  obtain ⟨t', h1, h2, h3⟩ := c27_transpose (ident := .int 7) (axes := [1, 0])
    (t := (arrVal [2, 3] fun i => 10 * (i.getD 0 0) + i.getD 1 0 : TVal Nat)) (sh := [2, 3])
    (by simp [arrVal, shape]) (by decide)
  exact ⟨t', h1, h3 [1, 2] (by simp [InRange])⟩

end TVal

/-! ## C28 norm -/

namespace TVal

section Norm

variable {R : Type} [CommSemiring R] [StarRing R]

/-- C28: the network contracted by `norm_squared` stands for the sum of `t * conj t` over all indices. -/
theorem c28_value {ia ib : Nm} {t : TVal R} {sh : List Nat} (hne : ia ≠ ib) (hw : Whole t)
    (hs : t.shape = some (sh.map some)) :
    ∃ c, normNet ia t ib = .ok c ∧ c.shape = some [] ∧ c.val [] = sumIdx sh fun idx => t.val idx * star (t.val idx) := by
  obtain ⟨t', a1, a2, a3⟩ := c26_conj hw
  obtain ⟨tn, tn', h1, h2, h3, h4, h5⟩ := twoNodes (τ := TVal R) (a := t) (b := t') (o := false) hne hs (a2.trans hs)
    (sb := sh) (fun k d d' h h' => by rw [h] at h'; simpa using h')
  rw [if_neg (by simp)] at h5
  have hS : longer sh sh = sh := by unfold longer; split <;> rfl
  rw [hS] at h3
  refine ⟨ofTN tn', ?_, ?_, ?_⟩
  · unfold normNet; rw [h1, a1]; dsimp only; rw [h2]
  · exact shape_range (op := []) h3 h5 (by simp)
  · rw [val_ofTN]
    unfold TN.value
    have hfs : tn'.factors val = [⟨rangeLegs sh.length, t.val⟩, ⟨rangeLegs sh.length, t'.val⟩] := by
      unfold TN.factors; rw [h4]; rfl
    rw [hfs, h5, show ([] : List Nat) = ([] : List Nm).map (fun _ => 0) from rfl,
      einsum_at (inner := rangeLegs sh.length) (by simp) (rangeLegs_nodup _) (by
        intro e
        simp)]
    rw [← sumOver_eq_sumIdx (dom := tn'.dom) (l := rangeLegs sh.length) (rangeLegs_nodup _) (rangeLegs_length _)
      (fun k e d hk hd => ?_) _ (fun _ => 0)]
    · refine sumOver_congr fun b => ?_
      simp [prodAt, Factor.at, a3]
    · have : k < sh.length := (List.getElem?_eq_some_iff.1 hd).1
      rw [rangeLegs_get this] at hk
      cases hk
      exact h3.dom hd

end Norm

theorem sumIdx_nonneg {sh : List Nat} {f : List Nat → ℝ} (h : ∀ idx, InRange sh idx → 0 ≤ f idx) : 0 ≤ sumIdx sh f := by
  induction sh generalizing f with
  | nil => exact h [] List.Forall₂.nil
  | cons d ds ih =>
    exact Finset.sum_nonneg fun x hx => ih fun idx hi => h _ (List.Forall₂.cons (Finset.mem_range.1 hx) hi)

theorem sumIdx_eq_zero {sh : List Nat} {f : List Nat → ℝ} (h : ∀ idx, InRange sh idx → 0 ≤ f idx) :
    sumIdx sh f = 0 ↔ ∀ idx, InRange sh idx → f idx = 0 := by
  induction sh generalizing f with
  | nil =>
    constructor
    · intro h idx hi; cases hi; exact h
    · intro h; exact h [] List.Forall₂.nil
  | cons d ds ih =>
    rw [sumIdx, Finset.sum_eq_zero_iff_of_nonneg fun x hx =>
      sumIdx_nonneg fun idx hi => h _ (List.Forall₂.cons (Finset.mem_range.1 hx) hi)]
    constructor
    · intro hx idx hi
      cases hi with
      | cons h1 h2 =>
        exact (ih fun idx hi => h _ (List.Forall₂.cons h1 hi)).1 (hx _ (Finset.mem_range.2 h1)) _ h2
    · intro hx x hxd
      exact (ih fun idx hi => h _ (List.Forall₂.cons (Finset.mem_range.1 hxd) hi)).2 fun idx hi =>
        hx _ (List.Forall₂.cons (Finset.mem_range.1 hxd) hi)

theorem sumIdx_ofReal {sh : List Nat} (f : List Nat → ℝ) :
    ((sumIdx sh f : ℝ) : ℂ) = sumIdx sh fun idx => (f idx : ℂ) := by
  induction sh generalizing f with
  | nil => rfl
  | cons d ds ih => rw [sumIdx, sumIdx, Complex.ofReal_sum]; exact Finset.sum_congr rfl fun x _ => ih _

/-- C28 over the complex numbers: `norm_squared` is real, never negative, and zero exactly if every entry is zero. -/
theorem c28_nonneg {ia ib : Nm} {t : TVal ℂ} {sh : List Nat} (hne : ia ≠ ib) (hw : Whole t)
    (hs : t.shape = some (sh.map some)) :
    ∃ c, ∃ x : ℝ, normNet ia t ib = .ok c ∧ c.val [] = x ∧ x = sumIdx sh (fun idx => Complex.normSq (t.val idx)) ∧
      0 ≤ x ∧ (x = 0 ↔ ∀ idx, InRange sh idx → t.val idx = 0) := by
  obtain ⟨c, h1, -, h2⟩ := c28_value hne hw hs
  refine ⟨c, _, h1, ?_, rfl, sumIdx_nonneg fun _ _ => Complex.normSq_nonneg _, ?_⟩
  · rw [h2, sumIdx_ofReal]
    refine sumIdx_congr fun idx _ => ?_
    exact Complex.mul_conj _
  · rw [sumIdx_eq_zero fun _ _ => Complex.normSq_nonneg _]
    simp only [Complex.normSq_eq_zero]

/-- `c28_nonneg` on the vector (0, i). -/
example : ∃ c, normNet (.int 0) (arrVal [2] fun i => i.sum * Complex.I : TVal ℂ) (.int 1) = .ok c ∧ c.val [] = 1 := by
  obtain ⟨c, x, h1, h2, h3, -⟩ := c28_nonneg (ia := .int 0) (ib := .int 1) (sh := [2])
    (t := (arrVal [2] fun i => i.sum * Complex.I : TVal ℂ)) (by decide) (by simp [arrVal, Whole]) (by simp [arrVal, shape])
  refine ⟨c, h1, ?_⟩
  rw [h2, h3]
  simp [sumIdx, arrVal, val, Finset.sum_range_succ]

end TVal

end Verif
