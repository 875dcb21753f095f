import Verif.Lemmas.SolidConj
import Verif.Props.OperContract
/-!
# C24 to C28 for the results of `contract`: the operators commute with contraction

The theorems in `Props.Algebra` and `Props.Conj` are about the tensor an object stands for.  Here the objects are
contracted, through `expand`, `complete_delta`, the order finder, the compiler and the contractor.
-/

set_option linter.unusedSectionVars false

namespace Verif

namespace TVal

variable {R : Type} [CommSemiring R] [StarRing R] {L : Type} [AddCommMonoid L]

/-- `contract` of a solid tensor. -/
theorem solid_contract {B0 B : Backend L R} (h0 : B0.Sound) (hR0 : B0.Reliable) (hB : B.Sound) (hR : B.Reliable) {d k : Nat} {t : TVal R}
    {sh : List Nat} (hs : t.shape = some (sh.map some)) (ht : Solid d t) (hk : d ≤ k) :
    ∃ r, contract B0 k B t = some r ∧ r.shape = sh ∧ ∀ idx, InRange sh idx → r.get idx = t.tot idx :=
  c49_nested h0 k hB (ht.evaluable h0 hR0 hB hR hk) _ hs

theorem compatible_pair {a b : TVal R} {sh : List Nat} (ha : a.shape = some (sh.map some)) (hb : b.shape = some (sh.map some)) :
    Compatible ([a, b].filterMap TVal.shape) := by
  intro t ht t' ht'
  simp only [List.filterMap_cons, ha, hb, List.filterMap_nil, List.mem_cons, or_self, List.not_mem_nil, or_false] at ht ht'
  subst ht; subst ht'
  refine ⟨rfl, fun i d d' h h' => ?_⟩
  rw [h] at h'; simpa using h'

theorem add_solid {ia ib : Nm} {a b c : TVal R} {sh : List Nat} {d : Nat} (hne : ia ≠ ib) (ha : a.shape = some (sh.map some))
    (hb : b.shape = some (sh.map some)) (ta : Solid d a) (tb : Solid d b) :
    ∃ c, add ia a ib b = .ok c ∧ c.shape = some (sh.map some) ∧ Solid (d + 1) c ∧ ∀ idx, c.tot idx = a.tot idx + b.tot idx := by
  obtain ⟨s, h1, rfl⟩ := add_terms hne (compatible_pair ha hb)
  refine ⟨_, h1, shape_sum_pair ha hb, .sum sh (by simp) (fun p hp => ?_) (fun p hp => ?_), fun idx => ?_⟩
  · simp only [List.mem_cons, List.not_mem_nil, or_false] at hp
    rcases hp with rfl | rfl
    · exact ta
    · exact tb
  · simp only [List.mem_cons, List.not_mem_nil, or_false] at hp
    rcases hp with rfl | rfl
    · exact ha
    · exact hb
  · rw [tot]
    show totSum [(ia, a), (ib, b)] idx = _
    rw [totSum, totSum, totSum, add_zero]

section

variable {B0 B : Backend L R} (h0 : B0.Sound) (hR0 : B0.Reliable) (hB : B.Sound) (hR : B.Reliable)
include h0 hR0 hB hR

/-- **C24** for `contract`: contracting `a + b` gives the sum of the contractions.  Partial: two different objects. -/
theorem c24_contract_partial {ia ib : Nm} {a b : TVal R} {sh : List Nat} {d k : Nat} (hne : ia ≠ ib) (ha : a.shape = some (sh.map some))
    (hb : b.shape = some (sh.map some)) (ta : Solid d a) (tb : Solid d b) (hk : d < k) :
    ∃ c ra rb rc, add ia a ib b = .ok c ∧ contract B0 k B a = some ra ∧ contract B0 k B b = some rb ∧ contract B0 k B c = some rc ∧
      rc.shape = sh ∧ ∀ idx, InRange sh idx → rc.get idx = ra.get idx + rb.get idx := by
  obtain ⟨c, h1, h2, h3, h4⟩ := add_solid (c := a) hne ha hb ta tb
  obtain ⟨ra, a1, -, a3⟩ := solid_contract h0 hR0 hB hR ha ta (k := k) (by omega)
  obtain ⟨rb, b1, -, b3⟩ := solid_contract h0 hR0 hB hR hb tb (k := k) (by omega)
  obtain ⟨rc, c1, c2, c3⟩ := solid_contract h0 hR0 hB hR h2 h3 (k := k) (by omega)
  exact ⟨c, ra, rb, rc, h1, a1, b1, c1, c2, fun idx hi => by rw [c3 idx hi, a3 idx hi, b3 idx hi, h4]⟩

/-- **C25** for `contract`, what `*` does: contracting `a * b` gives the products of the entries of the contractions where
the indices agree, and zero elsewhere. -/
theorem c25_contract_actual {ia ib : Nm} {a b : TVal R} {sa sb : List Nat} {d k : Nat} (hia : NodeName ia) (hib : NodeName ib) (hne : ia ≠ ib)
    (ha : a.shape = some (sa.map some)) (hb : b.shape = some (sb.map some)) (hov : Overlap sa sb) (ta : Solid d a) (tb : Solid d b)
    (pa : Apart ia (longer sa sb).length a) (pb : Apart ib (longer sa sb).length b) (hk : d < k) :
    ∃ c ra rb rc, mul ia a ib b = .ok c ∧ contract B0 k B a = some ra ∧ contract B0 k B b = some rb ∧ contract B0 k B c = some rc ∧
      rc.shape = sa ++ sb ∧ ∀ i j, InRange sa i → InRange sb j → rc.get (i ++ j) = if Overlap i j then ra.get i * rb.get j else 0 := by
  obtain ⟨c, h1, h2, h4⟩ := mul_tot hne ha hb hov
  obtain ⟨h3, -⟩ := solid_mul hia hib hne ha hb hov ta tb pa pb h1
  obtain ⟨ra, a1, -, a3⟩ := solid_contract h0 hR0 hB hR ha ta (k := k) (by omega)
  obtain ⟨rb, b1, -, b3⟩ := solid_contract h0 hR0 hB hR hb tb (k := k) (by omega)
  obtain ⟨rc, c1, c2, c3⟩ := solid_contract h0 hR0 hB hR h2 h3 (k := k) (by omega)
  refine ⟨c, ra, rb, rc, h1, a1, b1, c1, c2, fun i j hi hj => ?_⟩
  rw [c3 _ (List.rel_append hi hj), a3 i hi, b3 j hj, h4 i j hi hj]

/-- **C25** for `contract`: the product with a tensor of rank 0 is the scalar multiple.  Partial: `c25_contract_actual` is
what happens for other ranks. -/
theorem c25_contract_partial {ia ib : Nm} {a b : TVal R} {sa sb : List Nat} {d k : Nat} (hia : NodeName ia) (hib : NodeName ib) (hne : ia ≠ ib)
    (ha : a.shape = some (sa.map some)) (hb : b.shape = some (sb.map some)) (h00 : sa = [] ∨ sb = []) (ta : Solid d a) (tb : Solid d b)
    (pa : Apart ia (sa ++ sb).length a) (pb : Apart ib (sa ++ sb).length b) (hk : d < k) :
    ∃ c ra rb rc, mul ia a ib b = .ok c ∧ contract B0 k B a = some ra ∧ contract B0 k B b = some rb ∧ contract B0 k B c = some rc ∧
      rc.shape = sa ++ sb ∧ ∀ i j, InRange sa i → InRange sb j → rc.get (i ++ j) = ra.get i * rb.get j := by
  have hl : longer sa sb = sa ++ sb := by
    rcases h00 with rfl | rfl
    · simp [longer]
    · unfold longer
      split
      · next h => simp at h; simp [h]
      · simp
  obtain ⟨c, ra, rb, rc, h1, h2, h3, h4, h5, h6⟩ := c25_contract_actual h0 hR0 hB hR hia hib hne ha hb (by
    intro k d d' h1 h2
    rcases h00 with rfl | rfl
    · simp at h1
    · simp at h2) ta tb (hl ▸ pa) (hl ▸ pb) hk
  refine ⟨c, ra, rb, rc, h1, h2, h3, h4, h5, fun i j hi hj => ?_⟩
  rw [h6 i j hi hj, if_pos]
  intro k d d' h1 h2
  rcases h00 with rfl | rfl
  · cases hi; simp at h1
  · cases hj; simp at h2

/-- **C26** for `contract`: contracting the conjugate gives the conjugate of the contraction. -/
theorem c26_contract_partial {t : TVal R} {sh : List Nat} {d k : Nat} (hw : Whole t) (hs : t.shape = some (sh.map some)) (ht : Solid d t)
    (hk : d ≤ k) : ∃ t' r r', conj t = .ok t' ∧ contract B0 k B t = some r ∧ contract B0 k B t' = some r' ∧ r'.shape = sh ∧
      ∀ idx, InRange sh idx → r'.get idx = star (r.get idx) := by
  obtain ⟨t', h1, h2, -⟩ := c26_conj hw
  obtain ⟨r, a1, -, a3⟩ := solid_contract h0 hR0 hB hR hs ht hk
  obtain ⟨r', b1, b2, b3⟩ := solid_contract h0 hR0 hB hR (h2.trans hs) (solid_conj ht h1) hk
  exact ⟨t', r, r', h1, a1, b1, b2, fun idx hi => by rw [b3 idx hi, a3 idx hi, conj_tot _ _ h1]⟩

/-- **C26** for `contract` of the lazy conjugate `TensorView`. -/
theorem c26_contract_view {t : TVal R} {sh : List Nat} {d k : Nat} (hs : t.shape = some (sh.map some)) (ht : Solid d t)
    (hk : d < k) : ∃ r r', contract B0 k B t = some r ∧ contract B0 k B (.view t) = some r' ∧ r'.shape = sh ∧
      ∀ idx, InRange sh idx → r'.get idx = star (r.get idx) := by
  obtain ⟨k, rfl⟩ : ∃ e, k = e + 1 := ⟨k - 1, by omega⟩
  obtain ⟨r, a1, -, a3⟩ := solid_contract h0 hR0 hB hR hs ht (k := k + 1) (by omega)
  obtain ⟨r', b1, b2, b3⟩ := c49_nested h0 (k + 1) hB (t := .view t) (by
    rw [Evaluable]
    exact ht.evaluable h0 hR0 hB hR (by omega)) sh (by rw [shape_def, shape]; exact hs)
  exact ⟨r, r', a1, b1, b2, fun idx hi => by rw [b3 idx hi, a3 idx hi, tot]⟩

/-- **C27** for `contract`: contracting the transpose gives the transpose of the contraction. -/
theorem c27_contract_partial {i : Nm} {t : TVal R} {sh axes : List Nat} {d k : Nat} (hi : NodeName i) (hs : t.shape = some (sh.map some))
    (hp : axes.Perm (List.range sh.length)) (ht : Solid d t) (ha : Apart i sh.length t) (hk : d < k) :
    ∃ t' r r', transpose i t axes = .ok t' ∧ contract B0 k B t = some r ∧ contract B0 k B t' = some r' ∧
      r'.shape = axes.map (fun k => sh[k]?.getD 0) ∧
      ∀ idx, InRange sh idx → r'.get (axes.map fun k => idx[k]?.getD 0) = r.get idx := by
  obtain ⟨t', h1, h2, h3⟩ := transpose_tot (ident := i) hs hp
  obtain ⟨h4, -⟩ := solid_transpose hi hs ht ha hp h1
  obtain ⟨r, a1, -, a3⟩ := solid_contract h0 hR0 hB hR hs ht (k := k) (by omega)
  obtain ⟨r', b1, b2, b3⟩ := solid_contract h0 hR0 hB hR h2 h4 (k := k) (by omega)
  refine ⟨t', r, r', h1, a1, b1, b2, fun idx hi => ?_⟩
  rw [b3 _ (inRange_axes hi fun k hk => List.mem_range.1 (hp.mem_iff.1 hk)), a3 idx hi, h3 idx hi]

/-- **C28** for `contract`: the number `norm_squared` computes (before `.real`) is the sum of the squared absolute values of
the entries of the contraction. -/
theorem c28_contract_partial {ia ib : Nm} {t : TVal R} {sh : List Nat} {d k : Nat} (hia : NodeName ia) (hib : NodeName ib) (hne : ia ≠ ib)
    (hw : Whole t) (hs : t.shape = some (sh.map some)) (ht : Solid d t) (pa : Apart ia sh.length t) (pb : Apart ib sh.length t) (hk : d < k) :
    ∃ c r rc, normNet ia t ib = .ok c ∧ contract B0 k B t = some r ∧ contract B0 k B c = some rc ∧ rc.shape = [] ∧
      rc.get [] = sumIdx sh fun idx => r.get idx * star (r.get idx) := by
  obtain ⟨c, h1, h2, h3⟩ := norm_tot (ia := ia) (ib := ib) hne hw hs
  have h4 := solid_norm hia hib hne hs ht pa pb h1
  obtain ⟨r, a1, -, a3⟩ := solid_contract h0 hR0 hB hR hs ht (k := k) (by omega)
  obtain ⟨rc, b1, b2, b3⟩ := solid_contract h0 hR0 hB hR (sh := []) (by rw [h2]; rfl) h4 (k := k) (by omega)
  refine ⟨c, r, rc, h1, a1, b1, b2, ?_⟩
  rw [b3 [] List.Forall₂.nil, h3]
  exact sumIdx_congr fun idx hi => by rw [a3 idx hi]

end

section Neg

variable {R : Type} [CommRing R] [StarRing R] {B0 B : Backend L R} (h0 : B0.Sound) (hR0 : B0.Reliable) (hB : B.Sound) (hR : B.Reliable)
include h0 hR0 hB hR

/-- **C24** for `contract`: `a - b`. -/
theorem c24_contract_sub_partial {ia ib i1 i2 : Nm} {a b : TVal R} {sh : List Nat} {d k : Nat} (hib : NodeName ib) (hi1 : NodeName i1)
    (h1 : ib ≠ i1) (h2 : ia ≠ i2) (ha : a.shape = some (sh.map some)) (hb : b.shape = some (sh.map some)) (ta : Solid d a) (tb : Solid d b)
    (pb : Apart ib sh.length b) (hk : d + 1 < k) :
    ∃ c ra rb rc, sub ia a ib b i1 i2 = .ok c ∧ contract B0 k B a = some ra ∧ contract B0 k B b = some rb ∧ contract B0 k B c = some rc ∧
      rc.shape = sh ∧ ∀ idx, InRange sh idx → rc.get idx = ra.get idx - rb.get idx := by
  have hsc : (scalar (-1 : R)).shape = some (([] : List Nat).map some) := by rw [scalar, shape]
  have hl : longer sh [] = sh := by
    unfold longer
    split
    · next h => simp at h; simp [h]
    · rfl
  have hov : Overlap sh [] := by intro k d d' _ h; simp at h
  obtain ⟨b', k1, k2, k3⟩ := mul_scalar_tot (ia := ib) (ib := i1) (c := (-1 : R)) h1 hb
  obtain ⟨k4, -⟩ := solid_mul hib hi1 h1 hb hsc hov tb (solid_ten _ _) (hl.symm ▸ pb) (apart_ten _ _ _) k1
  obtain ⟨c, m1, m2, m3, m4⟩ := add_solid (c := a) h2 ha k2 (ta.mono (Nat.le_succ d)) k4
  obtain ⟨ra, a1, -, a3⟩ := solid_contract h0 hR0 hB hR ha ta (k := k) (by omega)
  obtain ⟨rb, b1, -, b3⟩ := solid_contract h0 hR0 hB hR hb tb (k := k) (by omega)
  obtain ⟨rc, c1, c2, c3⟩ := solid_contract h0 hR0 hB hR m2 m3 (k := k) (by omega)
  refine ⟨c, ra, rb, rc, ?_, a1, b1, c1, c2, fun idx hi => ?_⟩
  · unfold sub neg
    rw [k1]; exact m1
  · rw [c3 idx hi, a3 idx hi, b3 idx hi, m4, k3 idx hi]
    ring

end Neg

/-! ### A concrete case -/

/-- The vector (i, 2 + i). -/
def exVec : Arr GaussianInt := ⟨[2], fun l => ⟨2 * l.sum, 1⟩⟩

/-- The vector (1, 0). -/
def exUnit : Arr GaussianInt := ⟨[2], fun l => if l = [0] then 1 else 0⟩

/-- The product of the two vectors, a network with repeated open edges, meets the hypotheses of the theorems. -/
theorem exProd : ∃ t, mul (.int 0) (.ten (some exVec)) (.int 1) (.ten (some exUnit)) = .ok t ∧ t.shape = some ([2, 2].map some) ∧ Whole t ∧
    Solid 1 t ∧ Tucked t := by
  have ha : (TVal.ten (some exVec)).shape = some ([2].map some) := by rw [shape]; rfl
  have hb : (TVal.ten (some exUnit)).shape = some ([2].map some) := by rw [shape]; rfl
  have hov : Overlap [2] [2] := fun k d d' h h' => by rw [h] at h'; simpa using h'
  obtain ⟨t, h1, h2, -⟩ := mul_tot (ia := .int 0) (ib := .int 1) (by decide) ha hb hov
  obtain ⟨h3, h4⟩ := solid_mul (nodeName_int 0) (nodeName_int 1) (by decide) ha hb hov (solid_ten 0 _) (solid_ten 0 _) (apart_ten _ _ _)
    (apart_ten _ _ _) h1
  exact ⟨t, h1, h2, mul_whole h1 (by rw [Whole]; trivial) (by rw [Whole]; trivial), h3, h4⟩

/-- Sum, difference, product, conjugate, transpose and norm of that network, contracted with the default order finder. -/
example : ∃ (t : TVal GaussianInt) (r : Arr GaussianInt), contract Oper.exEngine 4 Oper.exEngine t = some r ∧ r.shape = [2, 2] ∧
    (∃ c rc, add (.int 0) t (.int 1) (arrVal [2, 2] fun _ => 1) = .ok c ∧ contract Oper.exEngine 4 Oper.exEngine c = some rc ∧
      rc.shape = [2, 2]) ∧
    (∃ c rc, sub (R := GaussianInt) (.int 0) t (.int 0) t (.int 1) (.int 2) = .ok c ∧ contract Oper.exEngine 4 Oper.exEngine c = some rc ∧
      rc.get [1, 0] = 0) ∧
    (∃ c rc, mul (.int 0) t (.int 1) (scalar 3) = .ok c ∧ contract Oper.exEngine 4 Oper.exEngine c = some rc ∧ rc.get [1, 0] = r.get [1, 0] * 3) ∧
    (∃ c rc, conj t = .ok c ∧ contract Oper.exEngine 4 Oper.exEngine c = some rc ∧ rc.get [1, 0] = star (r.get [1, 0])) ∧
    (∃ c rc, transpose (.int 0) t [1, 0] = .ok c ∧ contract Oper.exEngine 4 Oper.exEngine c = some rc ∧ rc.get [0, 1] = r.get [1, 0]) ∧
    ∃ c rc, normNet (.int 0) t (.int 1) = .ok c ∧ contract Oper.exEngine 4 Oper.exEngine c = some rc ∧
      rc.get [] = sumIdx [2, 2] fun idx => r.get idx * star (r.get idx) := by
  have S := Oper.exEngine_sound
  have H := Oper.exEngine_reliable
  obtain ⟨t, -, hs, hw, ht, hu⟩ := exProd
  obtain ⟨r, h1, h2, -⟩ := solid_contract S H S H hs ht (k := 4) (by omega)
  have hin : InRange [2, 2] [1, 0] := by simp [InRange]
  refine ⟨t, r, h1, h2, ?_, ?_, ?_, ?_, ?_, ?_⟩
  · obtain ⟨c, -, -, rc, k1, -, -, k4, k5, -⟩ := c24_contract_partial S H S H (ia := .int 0) (ib := .int 1) (k := 4) (by decide) hs
      (b := arrVal [2, 2] fun _ => 1) (by rw [arrVal, shape]) ht (solid_ten 1 _) (by omega)
    exact ⟨c, rc, k1, k4, k5⟩
  · obtain ⟨c, ra, rb, rc, k1, k2, k3, k4, -, k6⟩ := c24_contract_sub_partial S H S H (ia := .int 0) (ib := .int 0) (i1 := .int 1) (i2 := .int 2)
      (k := 4) (nodeName_int 0) (nodeName_int 1) (by decide) (by decide) hs hs ht ht (hu.apart _ _) (by omega)
    refine ⟨c, rc, k1, k4, ?_⟩
    rw [k2] at k3; cases k3
    rw [k6 _ hin, sub_self]
  · obtain ⟨c, ra, rb, rc, k1, k2, k3, k4, -, k6⟩ := c25_contract_partial S H S H (ia := .int 0) (ib := .int 1) (k := 4) (nodeName_int 0)
      (nodeName_int 1) (by decide) hs (b := scalar 3) (sb := []) (by rw [scalar, shape]) (Or.inr rfl) ht (solid_ten 1 _) (hu.apart _ _)
      (apart_ten _ _ _) (by omega)
    refine ⟨c, rc, k1, k4, ?_⟩
    rw [h1] at k2; cases k2
    rw [scalar, contract_ten] at k3; cases k3
    exact k6 [1, 0] [] hin List.Forall₂.nil
  · obtain ⟨c, ra, rc, k1, k2, k3, -, k4⟩ := c26_contract_partial S H S H (k := 4) hw hs ht (by omega)
    rw [h1] at k2; cases k2
    exact ⟨c, rc, k1, k3, k4 _ hin⟩
  · obtain ⟨c, ra, rc, k1, k2, k3, -, k4⟩ := c27_contract_partial S H S H (i := .int 0) (k := 4) (axes := [1, 0]) (nodeName_int 0) hs
      (by decide) ht (hu.apart _ _) (by omega)
    rw [h1] at k2; cases k2
    exact ⟨c, rc, k1, k3, k4 _ hin⟩
  · obtain ⟨c, ra, rc, k1, k2, k3, -, k4⟩ := c28_contract_partial S H S H (ia := .int 0) (ib := .int 1) (k := 4) (nodeName_int 0) (nodeName_int 1)
      (by decide) hw hs ht (hu.apart _ _) (hu.apart _ _) (by omega)
    rw [h1] at k2; cases k2
    exact ⟨c, rc, k1, k3, k4⟩

/-! ### What the code gets wrong -/

/-- A network whose entry at `y` is the sum over `x` of a 2×2 array; its closed edge is called 1. -/
def clashIn : TN (TVal GaussianInt) :=
  ((({} : TN (TVal GaussianInt)).addNode (some (.str "x")) (.int 5) (some [.int 0, .int 1])
    (arrVal [2, 2] fun l => if l = [1, 1] then 2 else 3) false).1.openEdge (.int 0) none).1

/-- The product of that network, when it is the object with the identifier 0, and the vector (1, 1). -/
def clashMul : Except Err (TVal GaussianInt) := mul (.int 0) (ofTN clashIn) (.int 6) (arrVal [2] fun _ => 1)

/-- An entry of the result of `contract`. -/
def entryOf (t : Except Err (TVal GaussianInt)) (idx : List Nat) : Option GaussianInt :=
  match t with
  | .ok t => (contract Oper.exEngine 3 Oper.exEngine t).map fun r => r.get idx
  | .error _ => none

/-- C25 fails for `contract` without `Apart`: `expand` calls the closed edge `(0, 1)`, and so does `complete_delta` the
second copy of the open edge 0.  The entry at (1, 1) of the product is 2 instead of the product 5 of the entries of the
factors. -/
theorem c25_name_clash_violated : entryOf clashMul [1, 1] = some 2 ∧ entryOf (.ok (ofTN clashIn)) [1] = some 5 ∧
    entryOf (.ok (arrVal [2] fun _ => 1)) [1] = some 1 ∧ ∃ t, clashMul = .ok t ∧ t.tot [1, 1] = 5 := by
  refine ⟨by decide +kernel, by decide +kernel, by decide +kernel, ?_⟩
  cases h : clashMul with
  | error e =>
    have : clashMul.isOk = true := by decide +kernel
    rw [h] at this; cases this
  | ok t =>
    refine ⟨t, rfl, ?_⟩
    have : (match clashMul with | .ok t => t.tot [1, 1] | .error _ => 0) = 5 := by decide +kernel
    rw [h] at this
    exact this

end TVal

end Verif
