import Verif.Lemmas.Retarget
/-! # Lemmas: running a task with and without normalisation -/

set_option linter.unusedSectionVars false

namespace Verif

variable {R : Type} [CommSemiring R] {L : Type} [AddCommMonoid L]

/-- The two cell contents stand for the same array. -/
def CellRel (ex : L → R) : Option (L × Arr R) → Option (L × Arr R) → Prop
  | none, none => True
  | some (s, a), some (s', a') => a.shape = a'.shape ∧ ∀ idx, InRange a.shape idx → ex s * a.get idx = ex s' * a'.get idx
  | _, _ => False

/-- The two heaps stand for the same arrays. -/
def HeapRel (ex : L → R) (h h' : Heap L R) : Prop := h.fix = h'.fix ∧ ∀ c, CellRel ex (h.data c) (h'.data c)

theorem CellRel.rfl' {ex : L → R} (o : Option (L × Arr R)) : CellRel ex o o := by
  cases o with
  | none => trivial
  | some p => exact ⟨rfl, fun _ _ => rfl⟩

theorem CellRel.mk {ex : L → R} {p q : L × Arr R} (h1 : p.2.shape = q.2.shape)
    (h2 : ∀ idx, InRange p.2.shape idx → ex p.1 * p.2.get idx = ex q.1 * q.2.get idx) : CellRel ex (some p) (some q) :=
  ⟨h1, h2⟩

theorem HeapRel.rfl' {ex : L → R} (h : Heap L R) : HeapRel ex h h := ⟨rfl, fun _ => CellRel.rfl' _⟩

theorem HeapRel.put {ex : L → R} {h h' : Heap L R} (hh : HeapRel ex h h') (c : Nat) {v v' : L × Arr R}
    (hv : CellRel ex (some v) (some v')) : HeapRel ex (h.put c v) (h'.put c v') := by
  refine ⟨hh.1, fun i => ?_⟩
  unfold Heap.put
  dsimp only
  split
  · exact hv
  · exact hh.2 i

theorem HeapRel.putFix {ex : L → R} {h h' : Heap L R} (hh : HeapRel ex h h') (c v : Nat) :
    HeapRel ex (h.putFix c v) (h'.putFix c v) := by
  refine ⟨?_, hh.2⟩
  unfold Heap.putFix
  dsimp only
  rw [hh.1]

/-! ## Scaled operands -/

/-- Two operands together with scalars that make them equal. -/
structure OpPair (R : Type) where
  sub : List Nm
  u : R
  v : R
  a : Arr R
  b : Arr R

/-- Equal shapes, and `u a = v b`. -/
def OpPair.Ok (p : OpPair R) : Prop :=
  p.a.shape = p.b.shape ∧ ∀ idx, InRange p.a.shape idx → p.u * p.a.get idx = p.v * p.b.get idx

def lefts (ps : List (OpPair R)) : List (List Nm × Arr R) := ps.map fun p => (p.sub, p.a)
def rights (ps : List (OpPair R)) : List (List Nm × Arr R) := ps.map fun p => (p.sub, p.b)

theorem einPairs_congr {ps : List (OpPair R)} (h : ∀ p ∈ ps, p.Ok) : einPairs (lefts ps) = einPairs (rights ps) := by
  unfold einPairs lefts rights
  rw [List.flatMap_map, List.flatMap_map]
  refine List.flatMap_congr fun p hp => ?_
  dsimp only
  rw [(h p hp).1]

theorem einOk_congr {ps : List (OpPair R)} (h : ∀ p ∈ ps, p.Ok) (out : List Nm) :
    einOk (lefts ps) out ↔ einOk (rights ps) out := by
  unfold einOk
  rw [einPairs_congr h]
  refine and_congr ?_ (and_congr ?_ Iff.rfl)
  · simp [lefts, rights]
  · unfold lefts rights
    simp only [List.mem_map, forall_exists_index, and_imp, forall_apply_eq_imp_iff₂]
    exact forall₂_congr fun p hp => by rw [(h p hp).1]

theorem zip_get? {l : List Nm} {sh : List Nat} {D : Nm → Nat} (hl : l.length = sh.length)
    (h : ∀ p ∈ l.zip sh, D p.1 = p.2) : l.map D = sh := by
  induction l generalizing sh with
  | nil => simp at hl; exact (List.length_eq_zero_iff.1 hl.symm).symm
  | cons x l ih =>
    cases sh with
    | nil => simp at hl
    | cons d sh =>
      rw [List.map_cons, ih (by simpa using hl) fun p hp => h p (by simp [hp]), h (x, d) (by simp)]

theorem einOk_legs {ops : List (List Nm × Arr R)} {out : List Nm} (h : einOk ops out) {o : List Nm × Arr R} (ho : o ∈ ops) :
    o.1.map (einDim ops) = o.2.shape := by
  refine zip_get? (h.2.1 o ho) fun p hp => ?_
  unfold einDim
  rw [h.2.2.1 p (List.mem_flatMap.2 ⟨o, ho, hp⟩)]
  rfl

theorem prod_scale {ps : List (OpPair R)} {b : Nm → Nat} (h : ∀ p ∈ ps, p.u * p.a.get (p.sub.map b) = p.v * p.b.get (p.sub.map b)) :
    (ps.map OpPair.u).prod * prodAt (einFactors (lefts ps)) b = (ps.map OpPair.v).prod * prodAt (einFactors (rights ps)) b := by
  induction ps with
  | nil => rfl
  | cons p ps ih =>
    have h1 : einFactors (lefts (p :: ps)) = ⟨p.sub, p.a.get⟩ :: einFactors (lefts ps) := rfl
    have h2 : einFactors (rights (p :: ps)) = ⟨p.sub, p.b.get⟩ :: einFactors (rights ps) := rfl
    rw [h1, h2, prodAt_cons, prodAt_cons, List.map_cons, List.map_cons, List.prod_cons, List.prod_cons,
      mul_mul_mul_comm, mul_mul_mul_comm p.v, ih fun q hq => h q (by simp [hq])]
    congr 1
    exact h p (by simp)

/-- `npEinsum` is multilinear in its operands. -/
theorem npEinsum_scale {ps : List (OpPair R)} (h : ∀ p ∈ ps, p.Ok) (out : List Nm) :
    (npEinsum (lefts ps) out = none ∧ npEinsum (rights ps) out = none) ∨
    ∃ r r', npEinsum (lefts ps) out = some r ∧ npEinsum (rights ps) out = some r' ∧
      (⟨out, (ps.map OpPair.u).prod, (ps.map OpPair.v).prod, r, r'⟩ : OpPair R).Ok := by
  unfold npEinsum
  by_cases hok : einOk (lefts ps) out
  · right
    rw [if_pos hok, if_pos ((einOk_congr h out).1 hok)]
    have hdim : einDim (rights ps) = einDim (lefts ps) := by unfold einDim; rw [einPairs_congr h]
    refine ⟨_, _, rfl, rfl, by rw [hdim], fun idx _ => ?_⟩
    dsimp only
    rw [hdim]
    have hu : usedEdges (einFactors (lefts ps)) out = usedEdges (einFactors (rights ps)) out := by
      unfold usedEdges einFactors lefts rights
      simp only [List.map_map, List.flatMap_map]
      rfl
    unfold einsum
    rw [← sumOver_const_mul, ← sumOver_const_mul, hu]
    refine sumOver_congr_reach fun b hb => ?_
    rw [mul_ite, mul_ite, mul_zero, mul_zero]
    split
    · refine prod_scale fun p hp => (h p hp).2 _ ?_
      have h1 := einOk_legs hok (List.mem_map.2 ⟨p, hp, rfl⟩ : (p.sub, p.a) ∈ lefts ps)
      dsimp only at h1
      rw [← h1]
      refine inRange_map.2 fun e he => ?_
      have h2 := hb.2 e (by
        rw [← hu]
        refine mem_usedEdges.2 (Or.inl ⟨⟨p.sub, p.a.get⟩, ?_, he⟩)
        exact List.mem_map.2 ⟨(p.sub, p.a), List.mem_map.2 ⟨p, hp, rfl⟩, rfl⟩)
      exact Finset.mem_range.1 h2
    · rfl
  · left
    rw [if_neg hok, if_neg fun hc => hok ((einOk_congr h out).2 hc)]
    exact ⟨rfl, rfl⟩

theorem prod_eraseIdx {M : Type} [CommMonoid M] {l : List M} {i : Nat} {x : M} (h : l[i]? = some x) :
    l.prod = x * (l.eraseIdx i).prod := by
  obtain ⟨hi, rfl⟩ := List.getElem?_eq_some_iff.1 h
  rw [← List.prod_cons]
  exact (List.getElem_cons_eraseIdx_perm hi).symm.prod_eq

theorem prod_erase2 {M : Type} [CommMonoid M] {l : List M} {i j : Nat} {x y : M} (hij : i ≠ j) (hi : l[i]? = some x)
    (hj : l[j]? = some y) : l.prod = x * y * ((l.eraseIdx (max i j)).eraseIdx (min i j)).prod := by
  rcases Nat.lt_or_gt_of_ne hij with h | h
  · rw [max_eq_right (le_of_lt h), min_eq_left (le_of_lt h), prod_eraseIdx hj,
      prod_eraseIdx (l := l.eraseIdx j) (i := i) (x := x) (by rw [List.getElem?_eraseIdx_of_lt h]; exact hi)]
    rw [← mul_assoc, mul_comm y x]
  · rw [max_eq_left (le_of_lt h), min_eq_right (le_of_lt h), prod_eraseIdx hi,
      prod_eraseIdx (l := l.eraseIdx i) (i := j) (x := y) (by rw [List.getElem?_eraseIdx_of_lt h]; exact hj)]
    rw [← mul_assoc]

theorem map_erase2 {α β : Type} (f : α → β) (l : List α) (i j : Nat) :
    (((l.map f).eraseIdx i).eraseIdx j) = ((l.eraseIdx i).eraseIdx j).map f := by
  rw [List.eraseIdx_map, List.eraseIdx_map]

/-- So is a pairwise contraction expression. -/
theorem exprEval_scale (ord : List Nm → List Nm) (out : List Nm) :
    ∀ (path : List (Nat × Nat)) (ps : List (OpPair R)), (∀ p ∈ ps, p.Ok) →
      (exprEval ord out path (lefts ps) = none ∧ exprEval ord out path (rights ps) = none) ∨
      ∃ r r', exprEval ord out path (lefts ps) = some r ∧ exprEval ord out path (rights ps) = some r' ∧
        (⟨out, (ps.map OpPair.u).prod, (ps.map OpPair.v).prod, r, r'⟩ : OpPair R).Ok := by
  intro path
  induction path with
  | nil => intro ps _; exact Or.inl ⟨rfl, rfl⟩
  | cons q path ih =>
    intro ps h
    obtain ⟨i, j⟩ := q
    rw [exprEval, exprEval]
    have hgl : ∀ k : Nat, (lefts ps)[k]? = (ps[k]?).map fun p : OpPair R => (p.sub, p.a) := fun k => List.getElem?_map
    have hgr : ∀ k : Nat, (rights ps)[k]? = (ps[k]?).map fun p : OpPair R => (p.sub, p.b) := fun k => List.getElem?_map
    rw [hgl, hgl, hgr, hgr]
    cases hi : ps[i]? with
    | none => exact Or.inl ⟨rfl, rfl⟩
    | some x =>
      cases hj : ps[j]? with
      | none => exact Or.inl ⟨rfl, rfl⟩
      | some y =>
        simp only [Option.map_some]
        by_cases hij : i = j
        · rw [if_pos hij, if_pos hij]; exact Or.inl ⟨rfl, rfl⟩
        · rw [if_neg hij, if_neg hij]
          have hx := h x (List.mem_of_getElem? hi)
          have hy := h y (List.mem_of_getElem? hj)
          have hpair : ∀ p ∈ [x, y], p.Ok := by
            intro p hp
            simp only [List.mem_cons, List.not_mem_nil, or_false] at hp
            rcases hp with rfl | rfl
            · exact hx
            · exact hy
          let others := (ps.eraseIdx (max i j)).eraseIdx (min i j)
          have hol : ((lefts ps).eraseIdx (max i j)).eraseIdx (min i j) = lefts others := map_erase2 _ _ _ _
          have hor : ((rights ps).eraseIdx (max i j)).eraseIdx (min i j) = rights others := map_erase2 _ _ _ _
          have hoth : ∀ p ∈ others, p.Ok := fun p hp =>
            h p (List.mem_of_mem_eraseIdx (List.mem_of_mem_eraseIdx hp))
          have hu : (ps.map OpPair.u).prod = x.u * y.u * (others.map OpPair.u).prod := by
            rw [prod_erase2 (l := ps.map OpPair.u) hij (x := x.u) (y := y.u) (by rw [List.getElem?_map, hi]; rfl)
              (by rw [List.getElem?_map, hj]; rfl), map_erase2]
          have hv : (ps.map OpPair.v).prod = x.v * y.v * (others.map OpPair.v).prod := by
            rw [prod_erase2 (l := ps.map OpPair.v) hij (x := x.v) (y := y.v) (by rw [List.getElem?_map, hi]; rfl)
              (by rw [List.getElem?_map, hj]; rfl), map_erase2]
          rw [hol, hor]
          cases path with
          | nil =>
            dsimp only
            have he : (lefts others).isEmpty = (rights others).isEmpty := by
              cases others <;> rfl
            rw [he]
            by_cases hem : (rights others).isEmpty = true
            · rw [if_pos hem, if_pos hem]
              have hnil : others = [] := by
                cases ho : others with
                | nil => rfl
                | cons a l => rw [ho] at hem; simp [rights] at hem
              rcases npEinsum_scale hpair out with h1 | ⟨r, r', h1, h2, h3⟩
              · exact Or.inl h1
              · refine Or.inr ⟨r, r', h1, h2, ?_⟩
                rw [hu, hv, hnil]
                simpa using h3
            · rw [if_neg hem, if_neg hem]; exact Or.inl ⟨rfl, rfl⟩
          | cons q' path =>
            dsimp only
            have hsub : (lefts others).map Prod.fst = (rights others).map Prod.fst := by
              unfold lefts rights; rw [List.map_map, List.map_map]; rfl
            rw [hsub]
            generalize ord (keptEdges x.sub y.sub ((rights others).map Prod.fst) out) = kept
            rcases npEinsum_scale hpair kept with ⟨h1, h2⟩ | ⟨r, r', h1, h2, h3⟩
            · left
              rw [show [(x.sub, x.a), (y.sub, y.a)] = lefts [x, y] from rfl,
                show [(x.sub, x.b), (y.sub, y.b)] = rights [x, y] from rfl, h1, h2]
              exact ⟨rfl, rfl⟩
            · rw [show [(x.sub, x.a), (y.sub, y.a)] = lefts [x, y] from rfl,
                show [(x.sub, x.b), (y.sub, y.b)] = rights [x, y] from rfl, h1, h2]
              dsimp only
              have := ih (others ++ [⟨kept, x.u * y.u, x.v * y.v, r, r'⟩]) (fun p hp => by
                rcases List.mem_append.1 hp with hp | hp
                · exact hoth p hp
                · rw [List.mem_singleton] at hp
                  subst hp
                  simpa using h3)
              unfold lefts rights at this
              rw [List.map_append, List.map_append, List.map_append, List.map_append, List.prod_append,
                List.prod_append] at this
              simp only [List.map_cons, List.map_nil, List.prod_cons, List.prod_nil, mul_one] at this
              rw [hu, hv, mul_comm (x.u * y.u), mul_comm (x.v * y.v)]
              exact this

/-! ## Commands -/

/-- Normalisation is sound for an exponential that turns sums into products. -/
structure NormSound (E : Engine L R) (ex : L → R) : Prop where
  ex_zero : ex 0 = 1
  ex_add : ∀ s t, ex (s + t) = ex s * ex t
  nrm_some : ∀ f a l a', E.nrm = some f → f a = some (l, a') →
    a'.shape = a.shape ∧ ∀ idx, InRange a.shape idx → ex l * a'.get idx = a.get idx
  nrm_none : ∀ f a, E.nrm = some f → f a = none → ∀ idx, InRange a.shape idx → a.get idx = 0

theorem finish_rel {E : Engine L R} {ex : L → R} (hE : NormSound E ex) (s : L) (r : Arr R) :
    (E.finish s r).2.shape = r.shape ∧
    ∀ idx, InRange r.shape idx → ex (E.finish s r).1 * (E.finish s r).2.get idx = ex s * r.get idx := by
  unfold Engine.finish
  cases hn : E.nrm with
  | none => exact ⟨rfl, fun _ _ => rfl⟩
  | some f =>
    dsimp only
    cases hf : f r with
    | none =>
      refine ⟨rfl, fun idx hi => ?_⟩
      rw [hE.nrm_none f r hn hf idx hi, mul_zero]
      show _ * (0 : R) = 0
      rw [mul_zero]
    | some p =>
      obtain ⟨l, a⟩ := p
      obtain ⟨h1, h2⟩ := hE.nrm_some f r l a hn hf
      refine ⟨h1, fun idx hi => ?_⟩
      dsimp only
      rw [hE.ex_add, mul_comm (ex l), mul_assoc, h2 idx hi]

theorem ex_sum {ex : L → R} (h0 : ex 0 = 1) (ha : ∀ s t, ex (s + t) = ex s * ex t) (l : List L) :
    ex l.sum = (l.map ex).prod := by
  induction l with
  | nil => simpa using h0
  | cons s l ih => rw [List.sum_cons, ha, ih, List.map_cons, List.prod_cons]

theorem splice_congr (a b : Arr R) (hs : a.shape = b.shape) (idx vals : List Nat) :
    (a.fixAxes idx vals = none ∧ b.fixAxes idx vals = none) ∨
    ∃ r r', a.fixAxes idx vals = some r ∧ b.fixAxes idx vals = some r' ∧ r.shape = r'.shape ∧
      (∀ js, r.get js = a.get (spliceIdx (idx.zip vals) a.shape.length 0 js)) ∧
      (∀ js, r'.get js = b.get (spliceIdx (idx.zip vals) a.shape.length 0 js)) ∧
      r.shape = (a.shape.zipIdx.filter fun p => p.2 ∉ idx).map Prod.fst ∧ idx.length = vals.length ∧
      (idx.zip vals).all (fun p => match a.shape[p.1]? with | some d => decide (p.2 < d) | none => false) = true := by
  unfold Arr.fixAxes
  rw [← hs]
  split
  · next h => exact Or.inr ⟨_, _, rfl, rfl, rfl, fun _ => rfl, fun _ => rfl, rfl, h.2.1, h.2.2⟩
  · exact Or.inl ⟨rfl, rfl⟩

theorem mem_zip_keys {idx vals : List Nat} (hl : idx.length = vals.length) {p : Nat} :
    (∃ v, Dict.get? (idx.zip vals) p = some v) ↔ p ∈ idx := by
  have hk : Dict.keys (idx.zip vals) = idx := by
    unfold Dict.keys
    exact List.map_fst_zip (le_of_eq hl)
  constructor
  · rintro ⟨v, hv⟩
    rw [← hk]; exact Dict.mem_keys_of_get? hv
  · intro h
    rw [← hk] at h
    exact Dict.exists_get? h

/-- Putting pinned values in range back gives an index in range. -/
theorem inRange_splice {idx vals : List Nat} (hl : idx.length = vals.length) (sh : List Nat) (q : Nat)
    (hv : ∀ p v, Dict.get? (idx.zip vals) p = some v → ∀ d, q ≤ p → sh[p - q]? = some d → v < d) (js : List Nat)
    (hj : InRange (((sh.zipIdx q).filter fun p => p.2 ∉ idx).map Prod.fst) js) :
    InRange sh (spliceIdx (idx.zip vals) sh.length q js) := by
  induction sh generalizing q js with
  | nil => exact List.Forall₂.nil
  | cons d sh ih =>
    rw [List.length_cons, spliceIdx]
    rw [List.zipIdx_cons, List.filter_cons] at hj
    have hv' : ∀ p v, Dict.get? (idx.zip vals) p = some v → ∀ d, q + 1 ≤ p → sh[p - (q + 1)]? = some d → v < d := by
      intro p v h d' hq hd
      refine hv p v h d' (by omega) ?_
      rw [show p - q = (p - (q + 1)) + 1 by omega]
      simpa using hd
    cases hg : Dict.get? (idx.zip vals) q with
    | some v =>
      have hm : q ∈ idx := (mem_zip_keys hl).1 ⟨v, hg⟩
      rw [if_neg (by simpa using hm)] at hj
      exact List.Forall₂.cons (hv q v hg d (le_refl _) (by simp)) (ih (q + 1) hv' js hj)
    | none =>
      have hm : q ∉ idx := fun hc => by
        obtain ⟨v, hv⟩ := (mem_zip_keys hl).2 hc
        rw [hg] at hv; cases hv
      rw [if_pos (by simpa using hm), List.map_cons] at hj
      cases hj with
      | cons h1 h2 => exact List.Forall₂.cons h1 (ih (q + 1) hv' _ h2)

theorem mapM_rel {ex : L → R} {h h' : Heap L R} (hh : HeapRel ex h h') (lhs : List Nat) :
    (lhs.mapM h.data = none ∧ lhs.mapM h'.data = none) ∨
    ∃ vs vs', lhs.mapM h.data = some vs ∧ lhs.mapM h'.data = some vs' ∧
      List.Forall₂ (fun v v' => CellRel ex (some v) (some v')) vs vs' ∧ vs.length = lhs.length := by
  induction lhs with
  | nil => exact Or.inr ⟨[], [], rfl, rfl, List.Forall₂.nil, rfl⟩
  | cons c lhs ih =>
    rw [List.mapM_cons, List.mapM_cons]
    have hc := hh.2 c
    cases h1 : h.data c with
    | none =>
      cases h2 : h'.data c with
      | none => exact Or.inl ⟨rfl, rfl⟩
      | some w => rw [h1, h2] at hc; exact hc.elim
    | some v =>
      cases h2 : h'.data c with
      | none => rw [h1, h2] at hc; exact hc.elim
      | some w =>
        rw [h1, h2] at hc
        rcases ih with ⟨h3, h4⟩ | ⟨vs, vs', h3, h4, h5, h6⟩
        · left; rw [h3, h4]; exact ⟨rfl, rfl⟩
        · right; rw [h3, h4]; exact ⟨_, _, rfl, rfl, List.Forall₂.cons hc h5, by simp [h6]⟩

/-- The pairs of a command's operands. -/
def pairsOf (ex : L → R) : List (List Nm) → List (L × Arr R) → List (L × Arr R) → List (OpPair R)
  | s :: ss, v :: vs, v' :: vs' => ⟨s, ex v.1, ex v'.1, v.2, v'.2⟩ :: pairsOf ex ss vs vs'
  | _, _, _ => []

theorem pairsOf_spec {ex : L → R} {subs : List (List Nm)} {vs vs' : List (L × Arr R)}
    (h : List.Forall₂ (fun v v' => CellRel ex (some v) (some v')) vs vs') :
    (∀ p ∈ pairsOf ex subs vs vs', p.Ok) ∧ lefts (pairsOf ex subs vs vs') = subs.zip (vs.map Prod.snd) ∧
    rights (pairsOf ex subs vs vs') = subs.zip (vs'.map Prod.snd) ∧
    (subs.length = vs.length → ((pairsOf ex subs vs vs').map OpPair.u).prod = ((vs.map Prod.fst).map ex).prod ∧
      ((pairsOf ex subs vs vs').map OpPair.v).prod = ((vs'.map Prod.fst).map ex).prod) := by
  induction subs generalizing vs vs' with
  | nil =>
    refine ⟨by simp [pairsOf], rfl, rfl, fun hl => ?_⟩
    have : vs = [] := List.length_eq_zero_iff.1 hl.symm
    subst this
    cases h
    exact ⟨rfl, rfl⟩
  | cons s subs ih =>
    cases h with
    | nil => exact ⟨by simp [pairsOf], rfl, rfl, fun hl => by simp at hl⟩
    | @cons v v' vs vs' h1 h2 =>
      obtain ⟨h3, h4, h5, h6⟩ := ih h2
      refine ⟨?_, ?_, ?_, fun hl => ?_⟩
      · intro p hp
        rw [pairsOf, List.mem_cons] at hp
        rcases hp with rfl | hp
        · exact h1
        · exact h3 p hp
      · rw [pairsOf]; unfold lefts at h4 ⊢; rw [List.map_cons, h4]; rfl
      · rw [pairsOf]; unfold rights at h5 ⊢; rw [List.map_cons, h5]; rfl
      · obtain ⟨h7, h8⟩ := h6 (by simpa using hl)
        rw [pairsOf]
        simp only [List.map_cons, List.prod_cons]
        exact ⟨by rw [h7], by rw [h8]⟩

variable {E E' : Engine L R} {ex : L → R}

/-- One command on equivalent heaps. -/
theorem runCmd_rel (hE : NormSound E ex) (hE' : NormSound E' ex) (ho : E.ord = E'.ord) {h h' : Heap L R}
    (hh : HeapRel ex h h') (c : Cmd) :
    (runCmd E h c = none ∧ runCmd E' h' c = none) ∨
    ∃ g g', runCmd E h c = some g ∧ runCmd E' h' c = some g' ∧ HeapRel ex g g' := by
  cases c with
  | f lhs rhs idx cells =>
    rw [runCmd, runCmd]
    have hc := hh.2 lhs
    cases h1 : h.data lhs with
    | none =>
      cases h2 : h'.data lhs with
      | none => exact Or.inl ⟨rfl, rfl⟩
      | some w => rw [h1, h2] at hc; exact hc.elim
    | some v =>
      cases h2 : h'.data lhs with
      | none => rw [h1, h2] at hc; exact hc.elim
      | some w =>
        rw [h1, h2] at hc
        obtain ⟨s, a⟩ := v
        obtain ⟨s', a'⟩ := w
        obtain ⟨hs, hv⟩ := hc
        dsimp only
        rw [hh.1]
        rcases splice_congr a a' hs idx (cells.map h'.fix) with ⟨h3, h4⟩ | ⟨r, r', h3, h4, h5, h6, h7, h8, h9, h10⟩
        · left; rw [h3, h4]; exact ⟨rfl, rfl⟩
        · right
          rw [h3, h4]
          refine ⟨_, _, rfl, rfl, hh.put rhs ⟨h5, fun js hj => ?_⟩⟩
          rw [h6, h7]
          refine hv _ (inRange_splice h9 a.shape 0 (fun p v hp d _ hd => ?_) js (by rw [← h8]; exact hj))
          have h11 := List.all_eq_true.1 h10 _ (Dict.mem_of_get? hp)
          rw [Nat.sub_zero] at hd
          simp only [hd, decide_eq_true_eq] at h11
          exact h11
  | c lhs rhs subs out path =>
    rw [runCmd, runCmd]
    rcases mapM_rel hh lhs with ⟨h1, h2⟩ | ⟨vs, vs', h1, h2, h3, hlen⟩
    · left; rw [h1, h2]; exact ⟨rfl, rfl⟩
    · rw [h1, h2]
      dsimp only
      obtain ⟨h4, h5, h6, h7⟩ := pairsOf_spec (subs := subs) h3
      rw [← h5, ← h6]
      have fin : ∀ r r' : Arr R, (⟨out, ((pairsOf ex subs vs vs').map OpPair.u).prod,
          ((pairsOf ex subs vs vs').map OpPair.v).prod, r, r'⟩ : OpPair R).Ok → subs.length = lhs.length →
          CellRel ex (some (E.finish (vs.map Prod.fst).sum r)) (some (E'.finish (vs'.map Prod.fst).sum r')) := by
        rintro r r' ⟨h10, h11⟩ hl
        obtain ⟨h12, h13⟩ := h7 (by omega)
        obtain ⟨f1, f2⟩ := finish_rel hE (vs.map Prod.fst).sum r
        obtain ⟨f3, f4⟩ := finish_rel hE' (vs'.map Prod.fst).sum r'
        dsimp only at h10 h11
        refine CellRel.mk (by rw [f1, f3, h10]) fun idx hi => ?_
        rw [f1] at hi
        rw [f2 idx hi, f4 idx (by rw [← h10]; exact hi), ex_sum hE.ex_zero hE.ex_add, ex_sum hE.ex_zero hE.ex_add,
          ← h12, ← h13]
        exact h11 idx hi
      by_cases hl : subs.length = lhs.length
      · simp only [if_pos hl]
        cases path with
        | none =>
          dsimp only
          rcases npEinsum_scale h4 out with ⟨h8, h9⟩ | ⟨r, r', h8, h9, h10⟩
          · left; rw [h8, h9]; exact ⟨rfl, rfl⟩
          · right; rw [h8, h9]; exact ⟨_, _, rfl, rfl, hh.put rhs (fin r r' h10 hl)⟩
        | some p =>
          dsimp only
          rw [← ho]
          rcases exprEval_scale E.ord out p _ h4 with ⟨h8, h9⟩ | ⟨r, r', h8, h9, h10⟩
          · left; rw [h8, h9]; exact ⟨rfl, rfl⟩
          · right; rw [h8, h9]; exact ⟨_, _, rfl, rfl, hh.put rhs (fin r r' h10 hl)⟩
      · left
        simp only [if_neg hl]
        constructor <;> split <;> rfl

theorem runCmds_rel (hE : NormSound E ex) (hE' : NormSound E' ex) (ho : E.ord = E'.ord) (cs : List Cmd) {h h' : Heap L R}
    (hh : HeapRel ex h h') :
    (runCmds E cs h = none ∧ runCmds E' cs h' = none) ∨
    ∃ g g', runCmds E cs h = some g ∧ runCmds E' cs h' = some g' ∧ HeapRel ex g g' := by
  induction cs generalizing h h' with
  | nil => exact Or.inr ⟨h, h', rfl, rfl, hh⟩
  | cons c cs ih =>
    rw [runCmds, runCmds]
    rcases runCmd_rel hE hE' ho hh c with ⟨h1, h2⟩ | ⟨g, g', h1, h2, h3⟩
    · left; rw [h1, h2]; exact ⟨rfl, rfl⟩
    · rw [h1, h2]; exact ih h3

/-! ## Tasks -/

theorem loadCells_rel {data : Dict Nm (Arr R)} {inputs : Dict Nm Nat} (ps : List (Nm × Nm)) {h h' : Heap L R}
    (hh : HeapRel ex h h') :
    (loadCells data inputs ps h = none ∧ loadCells data inputs ps h' = none) ∨
    ∃ g g', loadCells data inputs ps h = some g ∧ loadCells data inputs ps h' = some g' ∧ HeapRel ex g g' := by
  induction ps generalizing h h' with
  | nil => exact Or.inr ⟨h, h', rfl, rfl, hh⟩
  | cons p ps ih =>
    obtain ⟨di, dd⟩ := p
    rw [loadCells, loadCells]
    cases inputs.get? di with
    | none => exact Or.inl ⟨rfl, rfl⟩
    | some c =>
      cases data.get? dd with
      | none => exact Or.inl ⟨rfl, rfl⟩
      | some a => exact ih (hh.put c (CellRel.rfl' _))

theorem loadData_rel (srt : List Nm → List Nm) (t : Task R) {h h' : Heap L R} (hh : HeapRel ex h h') :
    (t.loadData srt h = none ∧ t.loadData srt h' = none) ∨
    ∃ t1 g g', t.loadData srt h = some (t1, g) ∧ t.loadData srt h' = some (t1, g') ∧ HeapRel ex g g' := by
  unfold Task.loadData
  split
  · rcases loadCells_rel (data := t.data) (inputs := t.inputs) ((srt t.inputs.keys).zip (srt t.data.keys)) hh with
      ⟨h1, h2⟩ | ⟨g, g', h1, h2, h3⟩
    · left; rw [h1, h2]; exact ⟨rfl, rfl⟩
    · right; rw [h1, h2]; exact ⟨_, g, g', rfl, rfl, h3⟩
  · exact Or.inl ⟨rfl, rfl⟩

theorem NormSound.plain (hE : NormSound E ex) : NormSound { E with nrm := none } ex :=
  ⟨hE.ex_zero, hE.ex_add, fun _ _ _ _ h => by simp at h, fun _ _ h => by simp at h⟩

theorem setCells_rel (d : Dict (Nm × List Nat) Nat) (k : Nat) {h h' : Heap L R} (hh : HeapRel ex h h') :
    HeapRel ex (setCells d k h) (setCells d k h') := by
  induction d generalizing k h h' with
  | nil => exact hh
  | cons p d ih => obtain ⟨⟨e, vals⟩, c⟩ := p; rw [setCells, setCells]; exact ih _ (hh.putFix _ _)

theorem getItem_rel (hE : NormSound E ex) (hE' : NormSound E' ex) (ho : E.ord = E'.ord) (srt : List Nm → List Nm)
    (t : Task R) (k : Nat) {h h' : Heap L R} (hh : HeapRel ex h h') :
    (t.getItem srt E k h = none ∧ t.getItem srt E' k h' = none) ∨
    ∃ t1 g g', t.getItem srt E k h = some (t1, g) ∧ t.getItem srt E' k h' = some (t1, g') ∧ HeapRel ex g g' := by
  have hprep : (t.prepare srt E h = none ∧ t.prepare srt E' h' = none) ∨
      ∃ t1 g g', t.prepare srt E h = some (t1, g) ∧ t.prepare srt E' h' = some (t1, g') ∧ HeapRel ex g g' := by
    unfold Task.prepare
    cases t.pre with
    | none => exact Or.inl ⟨rfl, rfl⟩
    | some b =>
      cases b with
      | true => exact Or.inr ⟨t, h, h', rfl, rfl, hh⟩
      | false =>
        dsimp only
        rcases loadData_rel srt t hh with ⟨h1, h2⟩ | ⟨t1, g, g', h1, h2, h3⟩
        · left; rw [h1, h2]; exact ⟨rfl, rfl⟩
        · rw [h1, h2]
          dsimp only
          rcases runCmds_rel hE.plain hE'.plain ho (t1.cmds.take t1.cnt) h3 with ⟨h4, h5⟩ | ⟨k, k', h4, h5, h6⟩
          · left; rw [h4, h5]; exact ⟨rfl, rfl⟩
          · right; rw [h4, h5]; exact ⟨_, k, k', rfl, rfl, h6⟩
  unfold Task.getItem
  rcases hprep with ⟨h1, h2⟩ | ⟨t1, g, g', h1, h2, h3⟩
  · left; rw [h1, h2]; exact ⟨rfl, rfl⟩
  · rw [h1, h2]
    dsimp only
    split
    · exact Or.inr ⟨t1, _, _, rfl, rfl, setCells_rel _ _ h3⟩
    · exact Or.inl ⟨rfl, rfl⟩

theorem run_rel (hE : NormSound E ex) (hE' : NormSound E' ex) (ho : E.ord = E'.ord) (t : Task R) {h h' : Heap L R}
    (hh : HeapRel ex h h') :
    (t.run E ex h = none ∧ t.run E' ex h' = none) ∨
    ∃ g g' r r', t.run E ex h = some (g, r) ∧ t.run E' ex h' = some (g', r') ∧ HeapRel ex g g' ∧ SameArr r r' := by
  unfold Task.run
  rcases runCmds_rel hE hE' ho t.cmds hh with ⟨h1, h2⟩ | ⟨g, g', h1, h2, h3⟩
  · left; rw [h1, h2]; exact ⟨rfl, rfl⟩
  · rw [h1, h2]
    dsimp only
    have hc := h3.2 t.output
    cases h4 : g.data t.output with
    | none =>
      cases h5 : g'.data t.output with
      | none => exact Or.inl ⟨rfl, rfl⟩
      | some w => rw [h4, h5] at hc; exact hc.elim
    | some v =>
      cases h5 : g'.data t.output with
      | none => rw [h4, h5] at hc; exact hc.elim
      | some w =>
        rw [h4, h5] at hc
        exact Or.inr ⟨g, g', _, _, rfl, rfl, h3, hc.1, hc.2⟩

/-- Same keys, same arrays. -/
def DictRel (d d' : Dict Nat (Arr R)) : Prop := List.Forall₂ (fun p q => p.1 = q.1 ∧ SameArr p.2 q.2) d d'

theorem DictRel.set {d d' : Dict Nat (Arr R)} (h : DictRel d d') (k : Nat) {r r' : Arr R} (hr : SameArr r r') :
    DictRel (d.set k r) (d'.set k r') := by
  induction h with
  | nil => exact List.Forall₂.cons ⟨rfl, hr⟩ List.Forall₂.nil
  | @cons p q d d' h1 h2 ih =>
    obtain ⟨a, x⟩ := p
    obtain ⟨b, y⟩ := q
    obtain ⟨hab, hxy⟩ := h1
    dsimp only at hab
    subst hab
    unfold Dict.set
    by_cases hk : a = k
    · rw [if_pos hk, if_pos hk]
      exact List.Forall₂.cons ⟨rfl, hr⟩ h2
    · rw [if_neg hk, if_neg hk]
      exact List.Forall₂.cons ⟨rfl, hxy⟩ ih

theorem runAll_rel (hE : NormSound E ex) (hE' : NormSound E' ex) (ho : E.ord = E'.ord) (srt : List Nm → List Nm)
    (ks : List Nat) (t : Task R) {h h' : Heap L R} (hh : HeapRel ex h h') {d d' : Dict Nat (Arr R)} (hd : DictRel d d') :
    (t.runAll srt E ex ks h d = none ∧ t.runAll srt E' ex ks h' d' = none) ∨
    ∃ t1 g g' e e', t.runAll srt E ex ks h d = some (t1, g, e) ∧ t.runAll srt E' ex ks h' d' = some (t1, g', e') ∧
      HeapRel ex g g' ∧ DictRel e e' := by
  induction ks generalizing t h h' d d' with
  | nil => exact Or.inr ⟨t, h, h', d, d', rfl, rfl, hh, hd⟩
  | cons k ks ih =>
    rw [Task.runAll, Task.runAll]
    rcases getItem_rel hE hE' ho srt t k hh with ⟨h1, h2⟩ | ⟨t1, g, g', h1, h2, h3⟩
    · left; rw [h1, h2]; exact ⟨rfl, rfl⟩
    · rw [h1, h2]
      dsimp only
      rcases run_rel hE hE' ho t1.sub h3 with ⟨h4, h5⟩ | ⟨k1, k2, r, r', h4, h5, h6, h7⟩
      · left; rw [h4, h5]; exact ⟨rfl, rfl⟩
      · rw [h4, h5]; exact ih t1 h6 (hd.set k h7)

theorem DictRel.same_shape {d d' : Dict Nat (Arr R)} (h : DictRel d d') :
    d.map (fun p => p.2.shape) = d'.map fun p => p.2.shape := by
  induction h with
  | nil => rfl
  | cons h1 _ ih => rw [List.map_cons, List.map_cons, ih, h1.2.1]

/-- All arrays have the same shape, as `sum` requires (numpy broadcasting of unequal shapes is not modelled). -/
def Uniform (d : Dict Nat (Arr R)) : Prop := ∀ p ∈ d, ∀ q ∈ d, p.2.shape = q.2.shape

theorem sumArrs_rel {d d' : Dict Nat (Arr R)} (h : DictRel d d') (hu : Uniform d) :
    SameArr (sumArrs (d.map Prod.snd)) (sumArrs (d'.map Prod.snd)) := by
  have hsh : (sumArrs (d.map Prod.snd)).shape = (sumArrs (d'.map Prod.snd)).shape := by
    cases h with
    | nil => rfl
    | cons h1 _ => exact h1.2.1
  refine ⟨hsh, fun idx hi => ?_⟩
  have hin : ∀ p ∈ d, InRange p.2.shape idx := by
    intro p hp
    cases d with
    | nil => simp at hp
    | cons q d => rw [hu p hp q (by simp)]; exact hi
  unfold sumArrs
  dsimp only
  clear hi hsh hu
  induction h with
  | nil => rfl
  | @cons p q d d' h1 h2 ih =>
    simp only [List.map_cons, List.sum_cons]
    rw [ih fun r hr => hin r (by simp [hr]), h1.2.2 idx (hin p (by simp))]

theorem mergeFits_congr {dims : Nm → Nat} {ids subOut : List Nm} {ax : Dict Nm Nat} {r r' : Arr R} (h : r.shape = r'.shape) :
    mergeFits dims ids subOut ax r = mergeFits dims ids subOut ax r' := by
  unfold mergeFits; rw [h]

theorem coord_lt {opn : List Nm} {sh idx : List Nat} (hl : opn.length = sh.length) (hi : InRange sh idx) {e : Nm}
    (he : e ∈ opn) : coord opn idx e < coord opn sh e := by
  unfold coord
  have h1 : opn.idxOf e < sh.length := by rw [← hl]; exact List.idxOf_lt_length_iff.2 he
  have h2 : opn.idxOf e < idx.length := by rw [hi.length_eq]; exact h1
  rw [List.getD_eq_getElem?_getD, List.getD_eq_getElem?_getD, List.getElem?_eq_getElem h1, List.getElem?_eq_getElem h2]
  exact List.Forall₂.get hi h2 h1

theorem merge_rel (t : Task R) {d d' : Dict Nat (Arr R)} (h : DictRel d d') (hu : Uniform d) :
    (t.merge d = none ∧ t.merge d' = none) ∨ ∃ r r', t.merge d = some r ∧ t.merge d' = some r' ∧ SameArr r r' := by
  unfold Task.merge
  cases t.openE with
  | none => exact Or.inr ⟨_, _, rfl, rfl, sumArrs_rel h hu⟩
  | some opn =>
    dsimp only
    by_cases hc : t.length = 1 ∨ t.shape = []
    · rw [if_pos hc, if_pos hc]; exact Or.inr ⟨_, _, rfl, rfl, sumArrs_rel h hu⟩
    · rw [if_neg hc, if_neg hc]
      have hne : d ≠ [] ↔ d' ≠ [] := by cases h <;> simp
      have hall : (d.all fun p => mergeFits (coord opn t.shape) (opn.filter (· ∉ t.subOut)) t.subOut
            (mergeAx t.subOut t.fixDict p.1 []) p.2) =
          d'.all fun p => mergeFits (coord opn t.shape) (opn.filter (· ∉ t.subOut)) t.subOut
            (mergeAx t.subOut t.fixDict p.1 []) p.2 := by
        clear hne hu
        induction h with
        | nil => rfl
        | @cons p q d d' h1 _ ih =>
          rw [List.all_cons, List.all_cons, ih, h1.1, mergeFits_congr h1.2.1]
      rw [hall]
      by_cases hk : d ≠ [] ∧ opn.length = t.shape.length ∧ (mergeAxes opn t.subOut).Nodup ∧
          (mergeAxes opn t.subOut).length = t.shape.length ∧ (∀ e ∈ t.subOut, e ∈ opn) ∧
          (d'.all fun p => mergeFits (coord opn t.shape) (opn.filter (· ∉ t.subOut)) t.subOut
            (mergeAx t.subOut t.fixDict p.1 []) p.2) = true
      · rw [if_pos hk, if_pos ⟨hne.1 hk.1, hk.2⟩]
        refine Or.inr ⟨_, _, rfl, rfl, rfl, fun idx hi => ?_⟩
        dsimp only at hi ⊢
        obtain ⟨hnn, hl, _, _, hsub, hfit⟩ := hk
        clear hnn
        rw [← hall] at hfit
        clear hall hne hu hc
        induction h with
        | nil => rfl
        | @cons p q d d' h1 _ ih =>
          rw [List.all_cons, Bool.and_eq_true] at hfit
          simp only [List.map_cons, List.sum_cons]
          rw [ih hfit.2, h1.1]
          congr 1
          split
          · refine h1.2.2 _ ?_
            have := hfit.1
            unfold mergeFits at this
            rw [Bool.and_eq_true, decide_eq_true_eq] at this
            rw [this.2]
            exact inRange_map.2 fun e he => coord_lt hl hi (hsub e he)
          · rfl
      · rw [if_neg hk, if_neg fun hc => hk ⟨hne.2 hc.1, hc.2⟩]
        exact Or.inl ⟨rfl, rfl⟩

end Verif
