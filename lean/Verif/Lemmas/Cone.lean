import Verif.Spec.Qaoa
import Mathlib.Algebra.BigOperators.Group.List.Lemmas
import Mathlib.Tactic.Ring
/-!
# Light cones: gates outside the cone of the observable cancel

Pure mathematics: the bits at level `j` of qubit `q` are called `(j, q)` on the ket side and `(-j, q)` on the bra side.
-/

set_option linter.unusedSectionVars false

namespace Verif.Cone

variable {R : Type} [CommSemiring R]

/-- A bit of the path of a qubit. -/
abbrev Pt := Int × Nm

/-- The bits of a qubit at a level. -/
def lvl (j : Nat) (q : Nm) : List Pt := if j = 0 then [(0, q)] else [((j : Int), q), (-(j : Int), q)]

/-- The bits of all qubits at a level. -/
def level (j : Nat) (V : List Nm) : List Pt := V.flatMap (lvl j)

theorem mem_lvl {j : Nat} {q : Nm} {e : Pt} : e ∈ lvl j q ↔ e.2 = q ∧ (e.1 = j ∨ e.1 = -(j : Int)) := by
  obtain ⟨i, q'⟩ := e
  unfold lvl
  split
  · subst_vars; simp [and_comm]
  · simp [Prod.ext_iff]; tauto

theorem mem_level {j : Nat} {V : List Nm} {e : Pt} : e ∈ level j V ↔ e.2 ∈ V ∧ (e.1 = j ∨ e.1 = -(j : Int)) := by
  unfold level
  rw [List.mem_flatMap]
  constructor
  · rintro ⟨q, hq, h⟩
    rw [mem_lvl] at h
    exact ⟨h.1 ▸ hq, h.2⟩
  · rintro ⟨h1, h2⟩
    exact ⟨e.2, h1, mem_lvl.2 ⟨rfl, h2⟩⟩

theorem level_append (j : Nat) (V W : List Nm) : level j (V ++ W) = level j V ++ level j W := by simp [level]

theorem level_perm {j : Nat} {V W : List Nm} (h : V.Perm W) : (level j V).Perm (level j W) := h.flatMap_right _

section
variable (X Xc : Nat → Nat → Nat → R) (P Pc : Nat → List Nm → List Nat → R) (C : (Nm → Nat) → R)

/-- The rotation of a qubit between levels `i` and `i + 1` on both sides. -/
def bothX (i : Nat) (a : Pt → Nat) (q : Nm) : R := X (i + 1) (a ((i : Int), q)) (a (((i + 1 : Nat) : Int), q)) * Xc (i + 1) (a (-(i : Int), q)) (a (-((i + 1 : Nat) : Int), q))

/-- The phase of a clause at level `j` on both sides. -/
def bothP (j : Nat) (a : Pt → Nat) (c : List Nm) : R := P j c (c.map fun q => a ((j : Int), q)) * Pc j c (c.map fun q => a (-(j : Int), q))

/-- The bits of a qubit on both sides agree. -/
def agree (j : Nat) (a : Pt → Nat) (q : Nm) : R := if a ((j : Int), q) = a (-(j : Int), q) then 1 else 0

/-- All gates up to a level. -/
def fullIn (V : List Nm) (csp : List (List Nm)) : Nat → (Pt → Nat) → R
  | 0, a => C fun q => a (0, q)
  | i + 1, a => (csp.map (bothP P Pc (i + 1) a)).prod * sumOver bitDom (level i V) (fun b => (V.map (bothX X Xc i b)).prod * fullIn V csp i b) a

/-- A clause meets a set of qubits. -/
def meets (S : List Nm) (c : List Nm) : Bool := c.any fun q => decide (q ∈ S)

/-- The gates in the cone up to a level. -/
def coneIn (S : Nat → List Nm) (csp : List (List Nm)) : Nat → (Pt → Nat) → R
  | 0, a => C fun q => a (0, q)
  | i + 1, a =>
    ((csp.filter (meets (S i))).map (bothP P Pc (i + 1) a)).prod * (((S (i + 1)).filter fun q => decide (q ∉ S i)).map (agree (i + 1) a)).prod *
      sumOver bitDom (level i (S i)) (fun b => ((S i).map (bothX X Xc i b)).prod * coneIn S csp i b) a

end

/-- The sets of qubits form a cone. -/
structure IsCone (V : List Nm) (csp : List (List Nm)) (S : Nat → List Nm) : Prop where
  V_nodup : V.Nodup
  csp_sub : ∀ c ∈ csp, ∀ q ∈ c, q ∈ V
  nodup : ∀ i, (S i).Nodup
  sub : ∀ i, ∀ q ∈ S i, q ∈ V
  mono : ∀ i, ∀ q ∈ S i, q ∈ S (i + 1)
  grow : ∀ i, ∀ c ∈ csp, meets (S i) c = true → ∀ q ∈ c, q ∈ S (i + 1)

variable {X Xc : Nat → Nat → Nat → R} {P Pc : Nat → List Nm → List Nat → R} {C : (Nm → Nat) → R} {V : List Nm} {csp : List (List Nm)} {S : Nat → List Nm}

theorem prod_agree (j : Nat) (a : Pt → Nat) (l : List Nm) :
    (l.map (agree (R := R) j a)).prod = if ∀ q ∈ l, a ((j : Int), q) = a (-(j : Int), q) then 1 else 0 := by
  induction l with
  | nil => simp
  | cons q l ih =>
    rw [List.map_cons, List.prod_cons, ih]
    unfold agree
    by_cases h : a ((j : Int), q) = a (-(j : Int), q)
    · simp [h]
    · simp [h]

theorem map_prod_congr {A : Type} {l : List A} {f g : A → R} (h : ∀ x ∈ l, f x = g x) : (l.map f).prod = (l.map g).prod := by
  rw [List.map_congr_left h]

theorem bothX_congr {i : Nat} {a b : Pt → Nat} {q : Nm} (h : ∀ e ∈ lvl i q ++ lvl (i + 1) q, a e = b e) : bothX X Xc i a q = bothX X Xc i b q := by
  unfold bothX
  rw [h ((i : Int), q) (by simp [mem_lvl]), h (((i + 1 : Nat) : Int), q) (by rw [List.mem_append, mem_lvl, mem_lvl]; simp),
    h (-(i : Int), q) (by simp [mem_lvl]), h (-((i + 1 : Nat) : Int), q) (by rw [List.mem_append, mem_lvl, mem_lvl]; simp)]

theorem bothP_congr {j : Nat} {a b : Pt → Nat} {c : List Nm} (h : ∀ q ∈ c, ∀ e ∈ lvl j q, a e = b e) : bothP P Pc j a c = bothP P Pc j b c := by
  unfold bothP
  rw [List.map_congr_left fun q hq => h q hq ((j : Int), q) (by simp [mem_lvl]), List.map_congr_left fun q hq => h q hq (-(j : Int), q) (by simp [mem_lvl])]

theorem agree_congr {j : Nat} {a b : Pt → Nat} {q : Nm} (h : ∀ e ∈ lvl j q, a e = b e) : agree (R := R) j a q = agree j b q := by
  unfold agree
  rw [h ((j : Int), q) (by simp [mem_lvl]), h (-(j : Int), q) (by simp [mem_lvl])]

theorem mem_level_of {j : Nat} {q : Nm} {e : Pt} (hq : q ∈ V) (h : e ∈ lvl j q) : e ∈ level j V := List.mem_flatMap.2 ⟨q, hq, h⟩

theorem level_disj {i j : Nat} (h : i ≠ j) {V W : List Nm} {e : Pt} (he : e ∈ level i V) : e ∉ level j W := by
  rw [mem_level] at *
  rintro ⟨_, h2⟩
  rcases he.2 with h1 | h1 <;> rcases h2 with h2 | h2 <;> omega

/-- What is inside a level depends only on the bits of that level. -/
theorem fullIn_dep (hc : ∀ c ∈ csp, ∀ q ∈ c, q ∈ V) (hC : ∀ x y : Nm → Nat, (∀ q ∈ V, x q = y q) → C x = C y) :
    ∀ i, DependsOn (fullIn X Xc P Pc C V csp i) (level i V)
  | 0 => fun a b h => hC _ _ fun q hq => h (0, q) (by rw [mem_level]; simp [hq])
  | i + 1 => by
    intro a b h
    unfold fullIn
    congr 1
    · exact map_prod_congr fun c hcc => bothP_congr fun q hq e he => h e (mem_level_of (hc c hcc q hq) he)
    · refine sumOver_base_dep (l' := level i V ++ level (i + 1) V) ?_ ?_
      · intro a b h
        beta_reduce
        refine congrArg₂ (· * ·) ?_ ?_
        · refine map_prod_congr fun q hq => bothX_congr fun e he => h e ?_
          rw [List.mem_append] at *
          exact he.imp (mem_level_of hq) (mem_level_of hq)
        · exact fullIn_dep hc hC i a b fun e he => h e (List.mem_append_left _ he)
      · intro e he hne
        exact h e ((List.mem_append.1 he).resolve_left hne)

/-- What is in the cone inside a level depends only on the bits of the cone at that level. -/
theorem coneIn_dep (hS : IsCone V csp S) (hC : ∀ x y : Nm → Nat, (∀ q ∈ S 0, x q = y q) → C x = C y) :
    ∀ i, DependsOn (coneIn X Xc P Pc C S csp i) (level i (S i))
  | 0 => fun a b h => hC _ _ fun q hq => h (0, q) (by rw [mem_level]; simp [hq])
  | i + 1 => by
    intro a b h
    unfold coneIn
    congr 1
    · congr 1
      · refine map_prod_congr fun c hcc => bothP_congr fun q hq e he => h e (mem_level_of ?_ he)
        rw [List.mem_filter] at hcc
        exact hS.grow i c hcc.1 hcc.2 q hq
      · exact map_prod_congr fun q hq => agree_congr fun e he => h e (mem_level_of (List.mem_filter.1 hq).1 he)
    · refine sumOver_base_dep (l' := level i (S i) ++ level (i + 1) (S (i + 1))) ?_ ?_
      · intro a b h
        beta_reduce
        refine congrArg₂ (· * ·) ?_ ?_
        · refine map_prod_congr fun q hq => bothX_congr fun e he => h e ?_
          rw [List.mem_append] at *
          exact he.imp (mem_level_of hq) (mem_level_of (hS.mono i q hq))
        · exact coneIn_dep hS hC i a b fun e he => h e (List.mem_append_left _ he)
      · intro e he hne
        exact h e ((List.mem_append.1 he).resolve_left hne)

/-- The rotations are unitary. -/
def Unitary (X Xc : Nat → Nat → Nat → R) : Prop := ∀ i x y, x < 2 → y < 2 → ∑ z ∈ Finset.range 2, X i z x * Xc i z y = if x = y then 1 else 0

/-- The phases have absolute value one. -/
def Phases (P Pc : Nat → List Nm → List Nat → R) : Prop := ∀ i c idx, P i c idx * Pc i c idx = 1

/-- The bits at a level are bits. -/
def BitsAt (j : Nat) (V : List Nm) (a : Pt → Nat) : Prop := ∀ e ∈ level j V, a e < 2

theorem lvl_sum (j : Nat) (q : Nm) (f : Nat → Nat → R) (a : Pt → Nat) :
    sumOver bitDom (lvl j q) (fun b => agree j b q * f (b ((j : Int), q)) (b (-(j : Int), q))) a = ∑ z ∈ Finset.range 2, f z z := by
  unfold lvl
  split
  · subst_vars
    simp [sumOver_cons, agree]
  · rename_i hj
    have hne : ((j : Int), q) ≠ (-(j : Int), q) := by simp; omega
    simp only [sumOver_cons, sumOver_nil, agree, Function.update_self, Function.update_of_ne hne, ite_mul, one_mul, zero_mul]
    refine Finset.sum_congr rfl fun z hz => ?_
    rw [Finset.sum_ite_eq (Finset.range 2) z, if_pos hz]

/-- Rotations outside the cone cancel. -/
theorem cancelX (hU : Unitary X Xc) {i : Nat} : ∀ {T : List Nm}, T.Nodup → ∀ {a : Pt → Nat}, BitsAt (i + 1) T a →
    sumOver bitDom (level i T) (fun b => (T.map fun q => agree i b q * bothX X Xc i b q).prod) a = (T.map (agree (i + 1) a)).prod
  | [], _, _, _ => rfl
  | q :: T, hn, a, ha => by
    have hq : q ∉ T := (List.nodup_cons.1 hn).1
    rw [show level i (q :: T) = lvl i q ++ level i T by simp [level], sumOver_append]
    have hfar : ∀ {b b' : Pt → Nat}, Reach bitDom (level i T) b b' → ∀ e ∈ lvl i q ++ lvl (i + 1) q, b' e = b e := by
      intro b b' hb e he
      refine hb.1 e fun hm => ?_
      rw [mem_level] at hm
      rw [List.mem_append, mem_lvl, mem_lvl] at he
      rcases he with he | he
      · exact hq (he.1 ▸ hm.1)
      · exact hq (he.1 ▸ hm.1)
    have h1 : ∀ b, Reach bitDom (lvl i q) a b → sumOver bitDom (level i T) (fun b => ((q :: T).map fun q => agree i b q * bothX X Xc i b q).prod) b =
        (T.map (agree (i + 1) a)).prod * (agree i b q * (X (i + 1) (b ((i : Int), q)) (a (((i + 1 : Nat) : Int), q)) * Xc (i + 1) (b (-(i : Int), q)) (a (-((i + 1 : Nat) : Int), q)))) := by
      intro b hb
      have hup : ∀ q' e, e ∈ lvl (i + 1) q' → b e = a e := by
        intro q' e he
        refine hb.1 e fun hm => ?_
        rw [mem_lvl] at he hm
        rcases he.2 with h | h <;> rcases hm.2 with h' | h' <;> omega
      simp only [List.map_cons, List.prod_cons]
      rw [sumOver_mul_left (g := fun b => agree i b q * bothX X Xc i b q)]
      · rw [cancelX hU (List.nodup_cons.1 hn).2, mul_comm]
        · congr 1
          · exact map_prod_congr fun q' _ => agree_congr fun e he => hup q' e he
          · unfold bothX
            rw [hup q (((i + 1 : Nat) : Int), q) (mem_lvl.2 ⟨rfl, Or.inl rfl⟩), hup q (-((i + 1 : Nat) : Int), q) (mem_lvl.2 ⟨rfl, Or.inr rfl⟩)]
        · intro e he
          rw [mem_level] at he
          rw [hup e.2 e (mem_lvl.2 ⟨rfl, he.2⟩)]
          exact ha e (mem_level.2 ⟨List.mem_cons_of_mem _ he.1, he.2⟩)
      · intro b' hb'
        have := hfar hb'
        rw [agree_congr fun e he => this e (List.mem_append_left _ he), bothX_congr this]
    rw [sumOver_congr_reach h1, sumOver_const_mul,
      lvl_sum i q (fun x y => X (i + 1) x (a (((i + 1 : Nat) : Int), q)) * Xc (i + 1) y (a (-((i + 1 : Nat) : Int), q))) a, hU, List.map_cons, List.prod_cons, mul_comm]
    · rfl
    · exact ha _ (mem_level.2 ⟨by simp, Or.inl rfl⟩)
    · exact ha _ (mem_level.2 ⟨by simp, Or.inr rfl⟩)

theorem split_perm (hS : IsCone V csp S) (i : Nat) : V.Perm (S i ++ V.filter fun q => decide (q ∉ S i)) := by
  refine (List.perm_ext_iff_of_nodup hS.V_nodup ?_).2 fun q => ?_
  · rw [List.nodup_append]
    refine ⟨hS.nodup i, hS.V_nodup.filter _, ?_⟩
    intro x hx y hy hxy
    simp at hy
    exact hy.2 (hxy ▸ hx)
  · simp only [List.mem_append, List.mem_filter, decide_eq_true_eq]
    constructor
    · intro h
      by_cases hs : q ∈ S i
      · exact Or.inl hs
      · exact Or.inr ⟨h, hs⟩
    · rintro (h | h)
      · exact hS.sub i q h
      · exact h.1

/-- The gates up to a level are those in the cone, and the bits outside agree. -/
theorem fullIn_eq (hS : IsCone V csp S) (hC : ∀ x y : Nm → Nat, (∀ q ∈ S 0, x q = y q) → C x = C y) (hU : Unitary X Xc) (hP : Phases P Pc) :
    ∀ i (a : Pt → Nat), BitsAt i V a →
      fullIn X Xc P Pc C V csp i a = ((V.filter fun q => decide (q ∉ S i)).map (agree i a)).prod * coneIn X Xc P Pc C S csp i a
  | 0, a, _ => by
    rw [prod_agree, if_pos (by intro q _; simp), one_mul]
    rfl
  | i + 1, a, ha => by
    set T := V.filter fun q => decide (q ∉ S i) with hT
    have hTn : T.Nodup := hS.V_nodup.filter _
    have hsum : sumOver bitDom (level i V) (fun b => (V.map (bothX X Xc i b)).prod * fullIn X Xc P Pc C V csp i b) a =
        (T.map (agree (i + 1) a)).prod * sumOver bitDom (level i (S i)) (fun b => ((S i).map (bothX X Xc i b)).prod * coneIn X Xc P Pc C S csp i b) a := by
      have e1 : sumOver bitDom (level i V) (fun b => (V.map (bothX X Xc i b)).prod * fullIn X Xc P Pc C V csp i b) a =
          sumOver bitDom (level i V) (fun b => (((S i).map (bothX X Xc i b)).prod * coneIn X Xc P Pc C S csp i b) * (T.map fun q => agree i b q * bothX X Xc i b q).prod) a := by
        refine sumOver_congr_reach fun b hb => ?_
        rw [fullIn_eq hS hC hU hP i b fun e he => Finset.mem_range.1 (hb.2 e he), ((split_perm hS i).map _).prod_eq, List.map_append, List.prod_append,
          List.prod_map_mul]
        ring
      rw [e1, sumOver_perm (level_perm (split_perm hS i)), level_append, sumOver_append, ← sumOver_const_mul]
      refine sumOver_congr_reach fun b hb => ?_
      have hup : ∀ W, ∀ e ∈ level (i + 1) W, b e = a e := fun W e he => hb.1 e (level_disj (by omega) he)
      rw [sumOver_mul_left_indep, cancelX hU hTn, mul_comm]
      · congr 1
        exact map_prod_congr fun q hq => agree_congr fun e he => hup [q] e (mem_level_of (by simp) he)
      · intro e he
        rw [hup T e he]
        rw [mem_level] at he
        exact ha e (mem_level.2 ⟨(List.mem_filter.1 he.1).1, he.2⟩)
      · refine DependsOn.indep (l := level i (S i) ++ level (i + 1) (S i)) ?_ ?_
        · intro c c' h
          beta_reduce
          refine congrArg₂ (· * ·) ?_ ?_
          · refine map_prod_congr fun q hq => bothX_congr fun e he => h e ?_
            rw [List.mem_append] at *
            exact he.imp (mem_level_of hq) (mem_level_of hq)
          · exact coneIn_dep hS hC i c c' fun e he => h e (List.mem_append_left _ he)
        · intro e he hm
          rw [mem_level] at hm
          rw [List.mem_append, mem_level, mem_level] at he
          have : e.2 ∉ S i := by simpa using (List.mem_filter.1 hm.1).2
          rcases he with he | he <;> exact this he.1
    rw [fullIn, hsum, coneIn]
    by_cases h : ∀ q ∈ T, a (((i + 1 : Nat) : Int), q) = a (-((i + 1 : Nat) : Int), q)
    · have h1 : (T.map (agree (R := R) (i + 1) a)).prod = 1 := by rw [prod_agree, if_pos h]
      have h2 : ((V.filter fun q => decide (q ∉ S (i + 1))).map (agree (R := R) (i + 1) a)).prod = 1 := by
        rw [prod_agree, if_pos]
        intro q hq
        rw [List.mem_filter, decide_eq_true_eq] at hq
        exact h q (List.mem_filter.2 ⟨hq.1, decide_eq_true fun hs => hq.2 (hS.mono i q hs)⟩)
      have h3 : (((S (i + 1)).filter fun q => decide (q ∉ S i)).map (agree (R := R) (i + 1) a)).prod = 1 := by
        rw [prod_agree, if_pos]
        intro q hq
        rw [List.mem_filter] at hq
        exact h q (List.mem_filter.2 ⟨hS.sub _ q hq.1, hq.2⟩)
      have h4 : (csp.map (bothP P Pc (i + 1) a)).prod = ((csp.filter (meets (S i))).map (bothP P Pc (i + 1) a)).prod := by
        have : ∀ l : List (List Nm), (∀ c ∈ l, c ∈ csp) → (l.map (bothP P Pc (i + 1) a)).prod = ((l.filter (meets (S i))).map (bothP P Pc (i + 1) a)).prod := by
          intro l hl
          induction l with
          | nil => rfl
          | cons c l ih =>
            rw [List.map_cons, List.prod_cons, ih fun c hc => hl c (by simp [hc]), List.filter_cons]
            split
            · rw [List.map_cons, List.prod_cons]
            · rename_i hm
              have : bothP P Pc (i + 1) a c = 1 := by
                unfold bothP
                rw [show (c.map fun q => a (((i + 1 : Nat) : Int), q)) = c.map fun q => a (-((i + 1 : Nat) : Int), q) from List.map_congr_left fun q hq => by
                  refine h q (List.mem_filter.2 ⟨hS.csp_sub c (hl c (by simp)) q hq, decide_eq_true fun hs => hm ?_⟩)
                  unfold meets
                  exact List.any_eq_true.2 ⟨q, hq, decide_eq_true hs⟩]
                exact hP _ _ _
              rw [this, one_mul]
        exact this csp fun _ h => h
      rw [h1, h2, h3, h4]
      ring
    · have h1 : (T.map (agree (R := R) (i + 1) a)).prod = 0 := by rw [prod_agree, if_neg h]
      have h2 : ((V.filter fun q => decide (q ∉ S (i + 1))).map (agree (R := R) (i + 1) a)).prod * (((S (i + 1)).filter fun q => decide (q ∉ S i)).map (agree (R := R) (i + 1) a)).prod = 0 := by
        rw [prod_agree, prod_agree]
        by_contra hne
        refine h fun q hq => ?_
        rw [List.mem_filter, decide_eq_true_eq] at hq
        split at hne
        · rename_i g1
          split at hne
          · rename_i g2
            by_cases hs : q ∈ S (i + 1)
            · exact g2 q (List.mem_filter.2 ⟨hs, decide_eq_true hq.2⟩)
            · exact g1 q (List.mem_filter.2 ⟨hq.1, decide_eq_true hs⟩)
          · simp at hne
        · simp at hne
      rw [h1, zero_mul, mul_zero]
      have : ∀ u v w z : R, u * w = 0 → u * (v * w * z) = 0 := by
        intro u v w z h
        rw [show u * (v * w * z) = (u * w) * (v * z) by ring, h, zero_mul]
      rw [this _ _ _ _ h2]

theorem sum_agree {i : Nat} : ∀ {T : List Nm}, T.Nodup → ∀ {a : Pt → Nat},
    sumOver bitDom (level i T) (fun b => (T.map (agree i b)).prod) a = (2 : R) ^ T.length
  | [], _, _ => by simp [level]
  | q :: T, hn, a => by
    have hq : q ∉ T := (List.nodup_cons.1 hn).1
    rw [show level i (q :: T) = lvl i q ++ level i T by simp [level], sumOver_append]
    have h1 : ∀ b, sumOver bitDom (level i T) (fun b => ((q :: T).map (agree i b)).prod) b = (2 : R) ^ T.length * (agree i b q * 1) := by
      intro b
      simp only [List.map_cons, List.prod_cons]
      rw [sumOver_mul_left (g := fun b => agree i b q), sum_agree (List.nodup_cons.1 hn).2]
      · ring
      · intro b' hb'
        refine agree_congr fun e he => hb'.1 e fun hm => ?_
        rw [mem_level] at hm
        rw [mem_lvl] at he
        exact hq (he.1 ▸ hm.1)
    rw [sumOver_congr h1, sumOver_const_mul, lvl_sum i q (fun _ _ => 1) a]
    simp only [Finset.sum_const, Finset.card_range, List.length_cons, pow_succ]
    norm_num

/-- Without the bits outside the cone. -/
theorem full_cone (hS : IsCone V csp S) (hC : ∀ x y : Nm → Nat, (∀ q ∈ S 0, x q = y q) → C x = C y) (hU : Unitary X Xc) (hP : Phases P Pc) (L : Nat) (a : Pt → Nat) :
    sumOver bitDom (level L V) (fullIn X Xc P Pc C V csp L) a =
      2 ^ (V.filter fun q => decide (q ∉ S L)).length * sumOver bitDom (level L (S L)) (coneIn X Xc P Pc C S csp L) a := by
  rw [sumOver_congr_reach (g := fun b => coneIn X Xc P Pc C S csp L b * ((V.filter fun q => decide (q ∉ S L)).map (agree L b)).prod) fun b hb => by
    rw [fullIn_eq hS hC hU hP L b fun e he => Finset.mem_range.1 (hb.2 e he), mul_comm]]
  rw [sumOver_perm (level_perm (split_perm hS L)), level_append, sumOver_append, ← sumOver_const_mul]
  refine sumOver_congr fun b => ?_
  rw [sumOver_mul_left_indep, sum_agree (hS.V_nodup.filter _), mul_comm]
  refine (coneIn_dep hS hC L).indep fun e he hm => ?_
  rw [mem_level] at he hm
  exact absurd he.1 (by simpa using (List.mem_filter.1 hm.1).2)

/-! ### The state -/

/-- The amplitudes of the layers outside a level on both sides. -/
def amps (X Xc : Nat → Nat → Nat → R) (P Pc : Nat → List Nm → List Nat → R) (V : List Nm) (csp : List (List Nm)) (k i : Nat) (a : Pt → Nat) : R :=
  qaoaAmp V csp X P k (i + 1) (fun q => a ((i : Int), q)) * qaoaAmp V csp Xc Pc k (i + 1) fun q => a (-(i : Int), q)

theorem amp_dep (X : Nat → Nat → Nat → R) (P : Nat → List Nm → List Nat → R) (V : List Nm) (csp : List (List Nm)) :
    ∀ k i, DependsOn (qaoaAmp V csp X P k i) V
  | 0, _ => fun _ _ _ => rfl
  | k + 1, i => fun x y h => by
    unfold qaoaAmp
    refine sumOver_congr fun b => ?_
    rw [map_prod_congr fun q hq => by rw [h q hq]]

theorem amps_dep (X Xc : Nat → Nat → Nat → R) (P Pc : Nat → List Nm → List Nat → R) (V : List Nm) (csp : List (List Nm)) (k i : Nat) :
    DependsOn (amps X Xc P Pc V csp k i) (level i V) := by
  intro a b h
  unfold amps
  rw [amp_dep X P V csp k (i + 1) _ (fun q => b ((i : Int), q)) fun q hq => h _ (mem_level.2 ⟨hq, Or.inl rfl⟩),
    amp_dep Xc Pc V csp k (i + 1) _ (fun q => b (-(i : Int), q)) fun q hq => h _ (mem_level.2 ⟨hq, Or.inr rfl⟩)]

theorem level_succ_perm (j : Nat) (V : List Nm) : (level (j + 1) V).Perm (V.map (fun q => ((((j + 1 : Nat) : Int), q) : Pt)) ++ V.map fun q => ((-((j + 1 : Nat) : Int), q) : Pt)) := by
  induction V with
  | nil => exact List.Perm.refl _
  | cons q V ih =>
    rw [show level (j + 1) (q :: V) = (((j + 1 : Nat) : Int), q) :: (-((j + 1 : Nat) : Int), q) :: level (j + 1) V by simp [level, lvl]]
    rw [List.map_cons, List.map_cons, List.cons_append]
    refine List.Perm.cons _ (List.Perm.trans (List.Perm.cons _ ih) List.perm_middle.symm)

/-- One layer of the amplitudes. -/
theorem amps_succ (hcsp : ∀ c ∈ csp, ∀ q ∈ c, q ∈ V) (k i : Nat) (a : Pt → Nat) :
    amps X Xc P Pc V csp (k + 1) i a =
      sumOver bitDom (level (i + 1) V) (fun b => (V.map (bothX X Xc i b)).prod * (csp.map (bothP P Pc (i + 1) b)).prod * amps X Xc P Pc V csp k (i + 1) b) a := by
  have hj : ∀ j : Int, Function.Injective fun q : Nm => ((j, q) : Pt) := fun j x y h => by simpa using h
  have hdep : ∀ (Z : Nat → Nat → Nat → R) (Q : Nat → List Nm → List Nat → R) (x : Nm → Nat),
      DependsOn (fun y => (V.map fun q => Z (i + 1) (x q) (y q)).prod * (csp.map fun c => Q (i + 1) c (c.map y)).prod * qaoaAmp V csp Z Q k (i + 1 + 1) y) V := by
    intro Z Q x y y' h
    beta_reduce
    rw [amp_dep Z Q V csp k (i + 1 + 1) y y' h, map_prod_congr fun q hq => by rw [h q hq],
      map_prod_congr (l := csp) (f := fun c => Q (i + 1) c (c.map y)) (g := fun c => Q (i + 1) c (c.map y')) fun c hc => by
        rw [List.map_congr_left fun q hq => h q (hcsp c hc q hq)]]
  rw [sumOver_perm (level_succ_perm i V), sumOver_append]
  have h1 : ∀ b : Pt → Nat, Reach bitDom (V.map fun q => ((((i + 1 : Nat) : Int), q) : Pt)) a b →
      sumOver bitDom (V.map fun q => ((-((i + 1 : Nat) : Int), q) : Pt)) (fun b => (V.map (bothX X Xc i b)).prod * (csp.map (bothP P Pc (i + 1) b)).prod * amps X Xc P Pc V csp k (i + 1) b) b =
        ((V.map fun q => X (i + 1) (a ((i : Int), q)) (b (((i + 1 : Nat) : Int), q))).prod * (csp.map fun c => P (i + 1) c (c.map fun q => b (((i + 1 : Nat) : Int), q))).prod *
          qaoaAmp V csp X P k (i + 1 + 1) fun q => b (((i + 1 : Nat) : Int), q)) * qaoaAmp V csp Xc Pc (k + 1) (i + 1) fun q => a (-(i : Int), q) := by
    intro b hb
    rw [qaoaAmp]
    have hm := sumOver_map (R := R) (fun q : Nm => ((-((i + 1 : Nat) : Int), q) : Pt)) (hj _) bitDom V
      (fun y => (V.map fun q => Xc (i + 1) (a (-(i : Int), q)) (y q)).prod * (csp.map fun c => Pc (i + 1) c (c.map y)).prod * qaoaAmp V csp Xc Pc k (i + 1 + 1) y) b
    rw [sumOver_base_dep (hdep Xc Pc fun q => a (-(i : Int), q)) (b := b ∘ fun q : Nm => ((-((i + 1 : Nat) : Int), q) : Pt)) fun e he hne => absurd he hne]
    rw [show (bitDom : Nm → Finset Nat) = (bitDom : Pt → Finset Nat) ∘ (fun q : Nm => ((-((i + 1 : Nat) : Int), q) : Pt)) from rfl, ← hm, ← sumOver_const_mul]
    refine sumOver_congr_reach fun c hc => ?_
    have k1 : ∀ q, c (((i + 1 : Nat) : Int), q) = b (((i + 1 : Nat) : Int), q) := fun q => hc.1 _ (by simp; intros; omega)
    have k2 : ∀ q, c ((i : Int), q) = a ((i : Int), q) := fun q => (hc.1 _ (by simp; intros; omega)).trans (hb.1 _ (by simp))
    have k3 : ∀ q, c (-(i : Int), q) = a (-(i : Int), q) := fun q => (hc.1 _ (by simp)).trans (hb.1 _ (by simp; intros; omega))
    have e1 : (V.map (bothX X Xc i c)).prod = (V.map fun q => X (i + 1) (a ((i : Int), q)) (b (((i + 1 : Nat) : Int), q))).prod *
        (V.map fun q => Xc (i + 1) (a (-(i : Int), q)) (c (-((i + 1 : Nat) : Int), q))).prod := by
      rw [← List.prod_map_mul]
      exact map_prod_congr fun q _ => by unfold bothX; rw [k1, k2, k3]
    have e2 : (csp.map (bothP P Pc (i + 1) c)).prod = (csp.map fun c => P (i + 1) c (c.map fun q => b (((i + 1 : Nat) : Int), q))).prod *
        (csp.map fun d => Pc (i + 1) d (d.map fun q => c (-((i + 1 : Nat) : Int), q))).prod := by
      rw [← List.prod_map_mul]
      exact map_prod_congr fun d _ => by unfold bothP; simp only [k1]
    rw [e1, e2]
    unfold amps
    simp only [k1, Function.comp_def]
    ring
  rw [sumOver_congr_reach h1]
  have hm := sumOver_map (R := R) (fun q : Nm => ((((i + 1 : Nat) : Int), q) : Pt)) (hj _) bitDom V
    (fun y => (V.map fun q => X (i + 1) (a ((i : Int), q)) (y q)).prod * (csp.map fun c => P (i + 1) c (c.map y)).prod * qaoaAmp V csp X P k (i + 1 + 1) y) a
  rw [show (fun b : Pt → Nat => ((V.map fun q => X (i + 1) (a ((i : Int), q)) (b (((i + 1 : Nat) : Int), q))).prod * (csp.map fun c => P (i + 1) c (c.map fun q => b (((i + 1 : Nat) : Int), q))).prod *
          qaoaAmp V csp X P k (i + 1 + 1) fun q => b (((i + 1 : Nat) : Int), q)) * qaoaAmp V csp Xc Pc (k + 1) (i + 1) fun q => a (-(i : Int), q)) =
      fun b => (qaoaAmp V csp Xc Pc (k + 1) (i + 1) fun q => a (-(i : Int), q)) * ((V.map fun q => X (i + 1) (a ((i : Int), q)) (b (((i + 1 : Nat) : Int), q))).prod * (csp.map fun c => P (i + 1) c (c.map fun q => b (((i + 1 : Nat) : Int), q))).prod *
          qaoaAmp V csp X P k (i + 1 + 1) fun q => b (((i + 1 : Nat) : Int), q)) from funext fun b => mul_comm _ _, sumOver_const_mul]
  unfold amps
  rw [mul_comm]
  congr 1
  rw [qaoaAmp, sumOver_base_dep (hdep X P fun q => a ((i : Int), q)) (b := a ∘ fun q : Nm => ((((i + 1 : Nat) : Int), q) : Pt)) fun e he hne => absurd he hne]
  exact hm.symm

/-- Summing from the inside or from the outside. -/
theorem shift (hcsp : ∀ c ∈ csp, ∀ q ∈ c, q ∈ V) (hC : ∀ x y : Nm → Nat, (∀ q ∈ V, x q = y q) → C x = C y) (a0 : Pt → Nat) :
    ∀ k i, sumOver bitDom (level i V) (fun a => fullIn X Xc P Pc C V csp i a * amps X Xc P Pc V csp k i a) a0 =
      sumOver bitDom (level (i + k) V) (fullIn X Xc P Pc C V csp (i + k)) a0
  | 0, i => by
    refine sumOver_congr fun b => ?_
    simp [amps, qaoaAmp]
  | k + 1, i => by
    rw [show i + (k + 1) = i + 1 + k by omega, ← shift hcsp hC a0 k (i + 1)]
    have h1 : ∀ a, fullIn X Xc P Pc C V csp i a * amps X Xc P Pc V csp (k + 1) i a = sumOver bitDom (level (i + 1) V)
        (fun b => fullIn X Xc P Pc C V csp i b * ((V.map (bothX X Xc i b)).prod * (csp.map (bothP P Pc (i + 1) b)).prod * amps X Xc P Pc V csp k (i + 1) b)) a := by
      intro a
      rw [amps_succ hcsp]
      exact (sumOver_mul_left_indep ((fullIn_dep hcsp hC i).indep fun e he => level_disj (j := i + 1) (by omega) he)).symm
    rw [sumOver_congr h1, ← sumOver_append, sumOver_perm List.perm_append_comm, sumOver_append]
    refine sumOver_congr fun b => ?_
    rw [fullIn]
    rw [show (fun b => fullIn X Xc P Pc C V csp i b * ((V.map (bothX X Xc i b)).prod * (csp.map (bothP P Pc (i + 1) b)).prod * amps X Xc P Pc V csp k (i + 1) b)) =
      fun b => ((csp.map (bothP P Pc (i + 1) b)).prod * amps X Xc P Pc V csp k (i + 1) b) * ((V.map (bothX X Xc i b)).prod * fullIn X Xc P Pc C V csp i b) from
        funext fun b => by ring]
    rw [sumOver_mul_left_indep]
    · ring
    · refine DependsOn.indep (l := level (i + 1) V) (fun x y h => ?_) fun e he => level_disj (i := i + 1) (j := i) (by omega) he
      rw [amps_dep X Xc P Pc V csp k (i + 1) x y h, map_prod_congr (l := csp) fun c hc => bothP_congr (P := P) (Pc := Pc) fun q hq e he => h e (mem_level_of (hcsp c hc q hq) he)]

/-- The mean of an observable, by the gates in its cone. -/
theorem mean_cone (hS : IsCone V csp S) (hC : ∀ x y : Nm → Nat, (∀ q ∈ S 0, x q = y q) → C x = C y) (hU : Unitary X Xc) (hP : Phases P Pc) (L : Nat) :
    qaoaMean V csp X Xc P Pc L C =
      2 ^ (V.filter fun q => decide (q ∉ S L)).length * sumOver bitDom (level L (S L)) (coneIn X Xc P Pc C S csp L) fun _ => 0 := by
  rw [← full_cone hS hC hU hP L]
  have := shift (X := X) (Xc := Xc) (P := P) (Pc := Pc) hS.csp_sub (fun x y h => hC x y fun q hq => h q (hS.sub 0 q hq)) (fun _ => 0) L 0
  rw [Nat.zero_add] at this
  rw [← this]
  have h0 : level 0 V = V.map fun q => ((0, q) : Pt) := by
    unfold level lvl
    simp only [if_true]
    rw [← List.flatMap_pure_eq_map]
    rfl
  rw [h0]
  unfold qaoaMean
  exact (sumOver_map (R := R) (fun q : Nm => ((0, q) : Pt)) (fun x y h => by simpa using h) bitDom V
    (fun x => C x * (qaoaAmp V csp X P L 1 x * qaoaAmp V csp Xc Pc L 1 x)) fun _ => 0).symm

end Verif.Cone
