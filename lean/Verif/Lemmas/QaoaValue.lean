import Verif.Lemmas.QaoaNet
import Verif.Lemmas.FixIndex
import Verif.Spec.Network
/-!
# The value of the network of a light cone
-/

set_option linter.unusedSectionVars false

namespace Verif.Cone

variable {R : Type} [CommSemiring R]
variable {X Xc : Nat → Nat → Nat → R} {P Pc : Nat → List Nm → List Nat → R} {C : (Nm → Nat) → R} {V : List Nm} {csp : List (List Nm)} {S : Nat → List Nm}

/-- The bits below a level. -/
def inner (S : Nat → List Nm) : Nat → List Pt
  | 0 => []
  | i + 1 => level i (S i) ++ inner S i

/-- The product of all gates in the cone up to a level. -/
def coneProd (X Xc : Nat → Nat → Nat → R) (P Pc : Nat → List Nm → List Nat → R) (C : (Nm → Nat) → R) (S : Nat → List Nm) (csp : List (List Nm)) : Nat → (Pt → Nat) → R
  | 0, a => C fun q => a (0, q)
  | i + 1, a =>
    ((csp.filter (meets (S i))).map (bothP P Pc (i + 1) a)).prod * (((S (i + 1)).filter fun q => decide (q ∉ S i)).map (agree (i + 1) a)).prod *
      (((S i).map (bothX X Xc i a)).prod * coneProd X Xc P Pc C S csp i a)

theorem mem_inner : ∀ {i : Nat} {e : Pt}, e ∈ inner S i ↔ ∃ j < i, e ∈ level j (S j)
  | 0, e => by simp [inner]
  | i + 1, e => by
    rw [inner, List.mem_append, mem_inner]
    constructor
    · rintro (h | ⟨j, h1, h2⟩)
      · exact ⟨i, by omega, h⟩
      · exact ⟨j, by omega, h2⟩
    · rintro ⟨j, h1, h2⟩
      by_cases h : j = i
      · exact Or.inl (h ▸ h2)
      · exact Or.inr ⟨j, by omega, h2⟩

/-- The nested sums as one sum. -/
theorem coneIn_flat (hS : IsCone V csp S) : ∀ i a, coneIn X Xc P Pc C S csp i a = sumOver bitDom (inner S i) (coneProd X Xc P Pc C S csp i) a
  | 0, a => rfl
  | i + 1, a => by
    rw [coneIn, inner]
    have hB : DependsOn (fun b => ((S i).map (bothX X Xc i b)).prod) (level i (S i) ++ level (i + 1) (S (i + 1))) := by
      intro a b h
      beta_reduce
      refine map_prod_congr fun q hq => bothX_congr fun e he => h e ?_
      rw [List.mem_append] at *
      exact he.imp (mem_level_of hq) (mem_level_of (hS.mono i q hq))
    have hA : DependsOn (fun a => ((csp.filter (meets (S i))).map (bothP P Pc (i + 1) a)).prod * (((S (i + 1)).filter fun q => decide (q ∉ S i)).map (agree (i + 1) a)).prod)
        (level (i + 1) (S (i + 1))) := by
      intro a b h
      beta_reduce
      congr 1
      · refine map_prod_congr fun c hcc => bothP_congr fun q hq e he => h e (mem_level_of ?_ he)
        rw [List.mem_filter] at hcc
        exact hS.grow i c hcc.1 hcc.2 q hq
      · exact map_prod_congr fun q hq => agree_congr fun e he => h e (mem_level_of (List.mem_filter.1 hq).1 he)
    have h1 : ∀ b, ((S i).map (bothX X Xc i b)).prod * coneIn X Xc P Pc C S csp i b =
        sumOver bitDom (inner S i) (fun b => ((S i).map (bothX X Xc i b)).prod * coneProd X Xc P Pc C S csp i b) b := by
      intro b
      rw [coneIn_flat hS i b]
      refine (sumOver_mul_left_indep (hB.indep fun e he hc => ?_)).symm
      obtain ⟨j, h1, h2⟩ := mem_inner.1 hc
      rcases List.mem_append.1 he with he | he
      · exact level_disj (i := i) (j := j) (by omega) he h2
      · exact level_disj (i := i + 1) (j := j) (by omega) he h2
    rw [sumOver_congr h1, ← sumOver_append]
    refine (sumOver_mul_left_indep (hA.indep fun e he hc => ?_)).symm
    have hc : e ∈ inner S (i + 1) := hc
    obtain ⟨j, h1, h2⟩ := mem_inner.1 hc
    exact level_disj (i := i + 1) (j := j) (by omega) he h2

theorem cone_flat (hS : IsCone V csp S) (L : Nat) (a : Pt → Nat) :
    sumOver bitDom (level L (S L)) (coneIn X Xc P Pc C S csp L) a = sumOver bitDom (inner S (L + 1)) (coneProd X Xc P Pc C S csp L) a := by
  rw [inner, sumOver_append]
  exact sumOver_congr fun b => coneIn_flat hS L b

theorem inner_nodup (hS : IsCone V csp S) : ∀ i, (inner S i).Nodup
  | 0 => by simp [inner]
  | i + 1 => by
    rw [inner, List.nodup_append]
    refine ⟨?_, inner_nodup hS i, ?_⟩
    · rw [level, List.nodup_flatMap]
      refine ⟨fun q _ => ?_, ?_⟩
      · unfold lvl
        split
        · simp
        · simp; omega
      · refine (hS.nodup i).imp ?_
        intro q q' hne e he he'
        rw [mem_lvl] at he he'
        exact hne (he.1.symm.trans he'.1)
    · rintro e he e' he' rfl
      obtain ⟨j, h1, h2⟩ := mem_inner.1 he'
      exact level_disj (i := i) (j := j) (by omega) he h2

end Verif.Cone

namespace Verif

open Cone

variable {R : Type} [CommSemiring R] {τ : Type}

/-- The factors of a list of nodes with the given entries. -/
def facs (F : Nm → List Nat → R) (NL : List (Nm × List Nm)) : List (Factor Nm R) := NL.map fun p => ⟨p.2, F p.1⟩

/-- The copy tensor of a turn. -/
def turnFac (R : Type) [CommSemiring R] (p : Nm × Nat) : Factor Nm R := ⟨[pt p.2 p.1, pt (-p.2) p.1], copyTen R⟩

theorem mem_used_facs {F : Nm → List Nat → R} {NL : List (Nm × List Nm)} {T : List (Nm × Nat)} {e : Nm} :
    e ∈ usedEdges (T.map (turnFac R) ++ facs F NL) [] ↔ (∃ p ∈ T, e = pt p.2 p.1 ∨ e = pt (-p.2) p.1) ∨ HasLeg NL e := by
  rw [mem_usedEdges]
  simp only [List.not_mem_nil, or_false, List.mem_append, or_and_right, exists_or, facs, HasLeg, List.mem_map, exists_exists_and_eq_and, turnFac, List.mem_cons]

theorem joinNL_value {F : Nm → List Nat → R} : ∀ {T : List (Nm × Nat)} {NL : List (Nm × List Nm)}, TurnsOK T NL →
    einsum bitDom (facs F (joinNL T NL)) [] [] = einsum bitDom (T.map (turnFac R) ++ facs F NL) [] []
  | [], _, _ => rfl
  | p :: T, NL, h => by
    rw [joinNL, joinNL_value h.tail]
    have hn := h.nodup
    rw [List.map_cons, List.nodup_cons] at hn
    have hne : ∀ x ∈ T, x.1 ≠ p.1 := fun x hx hc => hn.1 (hc ▸ List.mem_map_of_mem hx)
    have hm := einsum_merge (R := R) (dom := bitDom) (dom' := bitDom) (fs := T.map (turnFac R) ++ facs F NL) (opn := []) (es := [pt p.2 p.1, pt (-p.2) p.1])
      (K := [pt p.2 p.1, pt (-p.2) p.1]) (m := pt 0 p.1) (fun _ h => h) (fun _ h => Or.inr h) (Or.inr fun hc => by
        rcases mem_used_facs.1 hc with ⟨x, hx, hc⟩ | hc
        · have := h.pos x (by simp [hx])
          rcases hc with hc | hc
          · have := (pt_inj.1 hc).1; omega
          · have := (pt_inj.1 hc).1; omega
        · exact h.new p (by simp) hc) ⟨pt p.2 p.1, by simp, mem_used_facs.2 (Or.inr (h.ket p (by simp)))⟩ (fun x => by simp) (fun _ _ _ => rfl) []
    rw [List.map_nil] at hm
    rw [List.map_cons, List.cons_append]
    refine Eq.trans ?_ hm
    congr 1
    rw [List.map_append, List.map_map]
    refine congrArg₂ (· ++ ·) ?_ ?_
    · refine List.map_congr_left fun x hx => ?_
      have h1 : ∀ k, turnName p (pt k x.1) = pt k x.1 := fun k => turnName_of_ne (Or.inl (hne x hx))
      have h2 : [pt x.2 x.1, pt (-x.2) x.1].map (turnName p) = [pt x.2 x.1, pt (-x.2) x.1] := by simp [h1]
      show turnFac R x = Factor.rename (turnName p) (turnFac R x)
      unfold Factor.rename turnFac
      rw [h2]
    · unfold facs
      rw [List.map_map, List.map_map]
      rfl

/-- The value of a sketch filled with data. -/
theorem Sketch.value {A : Type} {tn : TN τ} {NL : List (Nm × List Nm)} (h : Sketch (some 2) tn NL) (f : Nm → A) (val : A → List Nat → R) :
    (tn.withData f).value val [] = einsum bitDom (facs (fun n => val (f n)) NL) [] [] := by
  unfold TN.value
  have h1 : (tn.withData f).factors val = facs (fun n => val (f n)) NL := by
    unfold TN.factors facs TN.withData
    rw [← h.legs, List.map_map, List.map_map]
    rfl
  rw [h1, show (tn.withData f).openE = [] from h.opn]
  refine einsum_dom_congr fun e he => ?_
  rw [mem_usedEdges] at he
  simp only [facs, List.mem_map, exists_exists_and_eq_and, List.not_mem_nil, or_false] at he
  obtain ⟨r, hr⟩ := Dict.exists_get? ((h.keys e).2 he)
  obtain ⟨h2, h3⟩ := h.edges e r hr
  show (match tn.edges.get? e with | some r => r.dom | none => ∅) = _
  rw [hr]
  simp [EdgeRec.dom, h3, h2]

/-- All turns of some layers in order. -/
def turnsList (S : Nat → List Nm) : Nat → List (Nm × Nat)
  | 0 => []
  | i + 1 => turnsList S i ++ ((S (i + 1)).filter fun q => decide (q ∉ S i)).map fun q => (q, i + 1)

theorem mem_turnsList {S : Nat → List Nm} : ∀ {i : Nat} {q : Nm} {t : Nat}, (q, t) ∈ turnsList S i ↔ ∃ j < i, t = j + 1 ∧ q ∈ S (j + 1) ∧ q ∉ S j
  | 0, q, t => by simp [turnsList]
  | i + 1, q, t => by
    rw [turnsList, List.mem_append, mem_turnsList]
    have : (q, t) ∈ ((S (i + 1)).filter fun q => decide (q ∉ S i)).map (fun q => (q, i + 1)) ↔ t = i + 1 ∧ q ∈ S (i + 1) ∧ q ∉ S i := by
      simp only [List.mem_map, List.mem_filter, decide_eq_true_eq, Prod.mk.injEq]
      exact ⟨fun ⟨a, h1, h2, h3⟩ => ⟨h3.symm, h2 ▸ h1⟩, fun ⟨h1, h2⟩ => ⟨q, h2, rfl, h1.symm⟩⟩
    rw [this]
    constructor
    · rintro (⟨j, h1, h2⟩ | h)
      · exact ⟨j, by omega, h2⟩
      · exact ⟨i, by omega, h⟩
    · rintro ⟨j, h1, h2⟩
      by_cases h : j = i
      · exact Or.inr (h ▸ h2)
      · exact Or.inl ⟨j, by omega, h2⟩

theorem turnsList_nodup {S : Nat → List Nm} (hS : ∀ i, (S i).Nodup) : ∀ i, (turnsList S i).Nodup
  | 0 => by simp [turnsList]
  | i + 1 => by
    rw [turnsList, List.nodup_append]
    refine ⟨turnsList_nodup hS i, ((hS _).filter _).map fun x y h => (Prod.mk.inj h).1, ?_⟩
    rintro ⟨q, t⟩ h ⟨q', t'⟩ h' hc
    obtain ⟨j, h1, h2, _⟩ := mem_turnsList.1 h
    simp only [List.mem_map, Prod.mk.injEq] at h'
    obtain ⟨a, _, _, h3⟩ := h'
    have := (Prod.mk.inj hc).2
    omega

theorem copyTen_two (x y : Nat) : copyTen R [x, y] = if x = y then 1 else 0 := by
  unfold copyTen
  refine if_congr ?_ rfl rfl
  simp
  exact fun h => h.symm

theorem prod_pairs {A : Type} (l : List A) (f g : A → R) : ((l.flatMap fun x => [f x, g x])).prod = (l.map fun x => f x * g x).prod := by
  induction l with
  | nil => rfl
  | cons x l ih => rw [List.flatMap_cons, List.prod_append, ih, List.map_cons, List.prod_cons]; simp

/-- The entries of the nodes of the network: rotations, phases, and the observable. -/
structure Entries (F : Nm → List Nat → R) (X Xc : Nat → Nat → Nat → R) (P Pc : Nat → List Nm → List Nat → R) (csp : List (List Nm)) (L : Nat) : Prop where
  ket : ∀ i < L, ∀ q x y, F (pt (2 * i + 1) q) [x, y] = X (i + 1) x y
  bra : ∀ i < L, ∀ q x y, F (pt (-2 * i - 1) q) [x, y] = Xc (i + 1) x y
  phase : ∀ i < L, ∀ c ∈ csp, ∀ idx, F (pt (2 * i + 2) (Nm.ofList c)) idx = P (i + 1) c idx
  phasec : ∀ i < L, ∀ c ∈ csp, ∀ idx, F (pt (-2 * i - 2) (Nm.ofList c)) idx = Pc (i + 1) c idx

/-- The product of all entries. -/
theorem net_prod {perm : List Nm → List Nm} (hp : ∀ l, (perm l).Perm l) {F : Nm → List Nat → R} {X Xc : Nat → Nat → Nat → R} {P Pc : Nat → List Nm → List Nat → R}
    {csp : List (List Nm)} {L : Nat} (hF : Entries F X Xc P Pc csp L) (C : (Nm → Nat) → R) (S0 : List Nm) (b : Nm → Nat) : ∀ {i : Nat}, i ≤ L →
    prodAt ((turnsList (coneSet csp S0) i).map (turnFac R)) b * prodAt (facs F (coneNL perm csp S0 i)) b * C (fun q => b (pt 0 q)) =
      coneProd X Xc P Pc C (coneSet csp S0) csp i (fun p => b (pt p.1 p.2))
  | 0, _ => by simp [turnsList, coneNL, facs, prodAt, coneProd]
  | i + 1, hi => by
    have ih := net_prod hp hF C S0 b (i := i) (by omega)
    have e1 : prodAt ((turnsList (coneSet csp S0) (i + 1)).map (turnFac R)) b = prodAt ((turnsList (coneSet csp S0) i).map (turnFac R)) b *
        (((coneSet csp S0 (i + 1)).filter fun q => decide (q ∉ coneSet csp S0 i)).map (agree (i + 1) fun p => b (pt p.1 p.2))).prod := by
      rw [turnsList, List.map_append]
      unfold prodAt
      rw [List.map_append, List.prod_append, List.map_map, List.map_map, List.map_map]
      congr 2
      refine List.map_congr_left fun q _ => ?_
      simp only [Function.comp, Factor.at, turnFac, List.map_cons, List.map_nil, copyTen_two, agree]
    have e2 : prodAt (facs F (coneNL perm csp S0 (i + 1))) b = prodAt (facs F (coneNL perm csp S0 i)) b *
        ((coneSet csp S0 i).map (bothX X Xc i fun p => b (pt p.1 p.2))).prod *
        ((csp.filter (meets (coneSet csp S0 i))).map (bothP P Pc (i + 1) fun p => b (pt p.1 p.2))).prod := by
      rw [coneNL]
      unfold prodAt facs
      rw [List.map_append, List.map_append, List.map_append, List.map_append, List.prod_append, List.prod_append, List.map_map, List.map_map, List.map_map]
      refine congrArg₂ (· * ·) (congrArg₂ (· * ·) rfl ?_) ?_
      · rw [rotNL, List.map_flatMap]
        simp only [List.map_cons, List.map_nil, Function.comp, Factor.at]
        rw [prod_pairs, ((hp (coneSet csp S0 i)).map _).prod_eq]
        refine map_prod_congr fun q _ => ?_
        rw [hF.ket i (by omega), hF.bra i (by omega)]
        unfold bothX
        have : (-(((i + 1 : Nat)) : Int)) = -(i : Int) - 1 := by push_cast; omega
        rw [this]
        push_cast
        rfl
      · rw [phaseNL, List.map_flatMap]
        simp only [List.map_cons, List.map_nil, Function.comp, Factor.at]
        rw [prod_pairs]
        refine map_prod_congr fun c hc => ?_
        rw [hF.phase i (by omega) c (List.mem_filter.1 hc).1, hF.phasec i (by omega) c (List.mem_filter.1 hc).1]
        unfold bothP
        have : (-(((i + 1 : Nat)) : Int)) = -(i : Int) - 1 := by push_cast; omega
        rw [this, List.map_map, List.map_map]
        push_cast
        rfl
    rw [e1, e2, coneProd, ← ih]
    ring

theorem coneSet_isCone {csp : List (List Nm)} {S0 V : List Nm} (hV : V.Nodup) (hcsp : ∀ c ∈ csp, ∀ q ∈ c, q ∈ V) (hS0 : ∀ q ∈ S0, q ∈ V) :
    IsCone V csp (coneSet csp S0) where
  V_nodup := hV
  csp_sub := hcsp
  nodup := coneSet_nodup
  sub := fun i => by
    induction i with
    | zero => exact fun q hq => hS0 q (List.mem_dedup.1 hq)
    | succ i ih =>
      intro q hq
      by_cases h : q ∈ coneSet csp S0 i
      · exact ih q h
      · obtain ⟨c, hc, hqc⟩ := mem_new hq h
        exact hcsp c (List.mem_filter.1 hc).1 q hqc
  mono := fun i q hq => coneSet_mono (Nat.le_succ i) hq
  grow := fun i c hc hm q hq => coneSet_grow (List.mem_filter.2 ⟨hc, hm⟩) hq

/-- The value of the network of a clause. -/
theorem clauseNet_value [HasShape τ] {perm : List Nm → List Nm} (hp : ∀ l, (perm l).Perm l) {hole : τ} (hh : HasShape.shape hole = none)
    {csp : List (List Nm)} (hcsp : csp.Nodup) {clause V : List Nm} (hV : V.Nodup) (hsub : ∀ c ∈ csp, ∀ q ∈ c, q ∈ V) (hcl : ∀ q ∈ clause, q ∈ V) {L : Nat} (hL : 0 < L)
    {A : Type} {f : Nm → A} {val : A → List Nat → R} {X Xc : Nat → Nat → Nat → R} {P Pc : Nat → List Nm → List Nat → R}
    (hF : Entries (fun n => val (f n)) X Xc P Pc csp L) :
    ∃ tn, clauseNet perm hole csp L clause = .ok (tn, (coneSet csp clause L).length) ∧
      (tn.withData f).value val [] = sumOver bitDom (level L (coneSet csp clause L))
        (coneIn X Xc P Pc (fun x => val (f (pt 0 (Nm.ofList clause))) (clause.map x)) (coneSet csp clause) csp L) fun _ => 0 := by
  obtain ⟨tn, T, h1, h2, h3⟩ := clauseNet_ok hp hh hcsp clause hL
  have hS := coneSet_isCone hV hsub hcl
  refine ⟨tn, h1, ?_⟩
  have hTp : T.Perm (turnsList (coneSet csp clause) L) := by
    refine (List.perm_ext_iff_of_nodup (List.Nodup.of_map _ h2.nodup) (turnsList_nodup coneSet_nodup L)).2 ?_
    rintro ⟨q, t⟩
    rw [h2.mem, mem_turnsList]
  rw [h3.value f val, joinNL_value (h2.ok hp).2, einsum_perm ((hTp.map _).append (List.Perm.refl _)), cone_flat hS]
  have hinj : Function.Injective fun p : Pt => pt p.1 p.2 := by
    rintro ⟨a, b⟩ ⟨c, d⟩ h
    obtain ⟨h1, h2⟩ := pt_inj.1 h
    exact Prod.ext h1 h2
  rw [einsum_eq_of_mem (l := (inner (coneSet csp clause) (L + 1)).map fun p : Pt => pt p.1 p.2) ((inner_nodup hS _).map hinj)]
  · have hm := sumOver_map (R := R) (fun p : Pt => pt p.1 p.2) hinj bitDom (inner (coneSet csp clause) (L + 1))
      (coneProd X Xc P Pc (fun x => val (f (pt 0 (Nm.ofList clause))) (clause.map x)) (coneSet csp clause) csp L) fun _ => 0
    refine Eq.trans (sumOver_congr fun b => ?_) hm
    rw [List.map_nil, if_pos rfl]
    refine Eq.trans ?_ (net_prod hp hF (fun x => val (f (pt 0 (Nm.ofList clause))) (clause.map x)) clause b (le_refl L))
    unfold prodAt facs
    rw [List.map_append, List.map_append, List.map_append, List.prod_append, List.prod_append, ← mul_assoc]
    congr 1
    simp [Factor.at, Function.comp_def]
  · intro e
    rw [mem_used_facs]
    simp only [List.mem_map, mem_inner, mem_level]
    constructor
    · rintro ⟨⟨k, q⟩, ⟨j, hj, hq, hk⟩, rfl⟩
      dsimp only at hq hk ⊢
      cases j with
      | zero =>
        refine Or.inr (hasLeg_append.2 (Or.inl ?_))
        have := (cone_leg hp hL hq).1
        simp only [CharP.cast_eq_zero, neg_zero, or_self] at hk this
        rw [hk]; exact this
      | succ j =>
        by_cases h : q ∈ coneSet csp clause j
        · refine Or.inr (hasLeg_append.2 (Or.inl ?_))
          obtain ⟨_, _, h3, h4⟩ := cone_leg hp (show j < L by omega) h
          rcases hk with hk | hk
          · rw [hk]; exact h3
          · rw [hk]; exact h4
        · refine Or.inl ⟨(q, j + 1), mem_turnsList.2 ⟨j, by omega, rfl, hq, h⟩, ?_⟩
          rcases hk with hk | hk
          · rw [hk]; exact Or.inl rfl
          · rw [hk]; exact Or.inr rfl
    · rintro (⟨⟨q, t⟩, hT, h⟩ | h)
      · obtain ⟨j, h1, rfl, h2, h3⟩ := mem_turnsList.1 hT
        rcases h with h | h
        · exact ⟨(_, q), ⟨j + 1, by omega, h2, Or.inl rfl⟩, h.symm⟩
        · exact ⟨(_, q), ⟨j + 1, by omega, h2, Or.inr rfl⟩, h.symm⟩
      · rcases hasLeg_append.1 h with h | ⟨x, hx, h⟩
        · obtain ⟨j, h1, q, hq, h | h⟩ := leg_cone hp h
          · exact ⟨(_, q), ⟨j, by omega, hq, Or.inl rfl⟩, h.symm⟩
          · exact ⟨(_, q), ⟨j, by omega, hq, Or.inr rfl⟩, h.symm⟩
        · rw [List.mem_singleton] at hx
          subst hx
          obtain ⟨q, hq, rfl⟩ := List.mem_map.1 h
          exact ⟨(0, q), ⟨0, by omega, List.mem_dedup.2 hq, Or.inl rfl⟩, rfl⟩

end Verif
