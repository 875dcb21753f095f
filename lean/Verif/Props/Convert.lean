import Verif.Lemmas.ConvertLoop
import Verif.Lemmas.Slice
import Verif.Lemmas.Contract
import Verif.Props.FixMerge
import Verif.Spec.Total
/-!
# C36: the network of a circuit is the time-ordered product of its operations
-/

set_option linter.unusedSectionVars false

namespace Verif

variable {R : Type} [CommSemiring R]

/-! ### Sums -/

section Sums

variable {E : Type} [DecidableEq E]

open Classical in
/-- A sum over smaller ranges is a sum over larger ranges with a condition. -/
theorem sumOver_widen {dom dom' : E → Finset Nat} {l : List E} (hl : l.Nodup) (hd : ∀ e ∈ l, dom e ⊆ dom' e)
    (f : (E → Nat) → R) (a : E → Nat) :
    sumOver dom l f a = sumOver dom' l (fun b => if ∀ e ∈ l, b e ∈ dom e then f b else 0) a := by
  induction l generalizing a with
  | nil => simp
  | cons e l ih =>
    obtain ⟨he, hl'⟩ := List.nodup_cons.1 hl
    rw [sumOver_cons, sumOver_cons]
    refine (Finset.sum_subset_zero_on_sdiff (hd e (by simp)) (fun x hx => ?_) fun x hx => ?_)
    · refine (sumOver_congr_reach fun b hb => ?_).trans (sumOver_zero dom' l _)
      rw [if_neg]
      intro hc
      have h1 := hc e (by simp)
      rw [hb.1 e he, Function.update_self] at h1
      exact (Finset.mem_sdiff.1 hx).2 h1
    · rw [ih hl' fun e' he' => hd e' (by simp [he'])]
      refine sumOver_congr_reach fun b hb => ?_
      have h1 : b e ∈ dom e := by rw [hb.1 e he, Function.update_self]; exact hx
      refine if_congr ?_ rfl rfl
      simp [h1]

end Sums

section Total

variable {τ : Type}

/-- The value of a network in which edges not in use are fixed to at most one value, as a sum over all edges. -/
theorem TN.value0_total {tn : TN τ} {val : τ → List Nat → R} (hn : tn.edges.keys.Nodup)
    (hu : ∀ e ∈ usedEdges (tn.factors val) tn.openE, e ∈ tn.edges.keys)
    (hl : ∀ e r, tn.edges.get? e = some r → e ∉ usedEdges (tn.factors val) tn.openE → ∃ l, r.fix = some l ∧ l.length ≤ 1)
    (idx : List Nat) :
    tn.value0 val idx = sumOver tn.dom tn.edges.keys
      (fun a => if tn.openE.map a = idx then prodAt (tn.factors val) a else 0) (fun _ => 0) := by
  unfold TN.value0
  split
  · next hV =>
    obtain ⟨e, r, h1, h2⟩ := hV
    refine (sumOver_empty (Dict.mem_keys_of_get? h1) ?_ _ _).symm
    unfold TN.dom
    rw [h1]
    simp [EdgeRec.dom, h2]
  · next hV =>
    have hp : tn.edges.keys.Perm (usedEdges (tn.factors val) tn.openE ++
        tn.edges.keys.filter fun e => e ∉ usedEdges (tn.factors val) tn.openE) := by
      refine perm_of_nodup_mem hn ?_ fun e => ?_
      · refine List.nodup_append.2 ⟨nodup_usedEdges _ _, hn.filter _, fun a ha b hb e => ?_⟩
        subst e
        exact (of_decide_eq_true (List.mem_filter.1 hb).2) ha
      · simp only [List.mem_append, List.mem_filter, decide_eq_true_eq]
        have := hu e
        tauto
    rw [sumOver_perm hp, sumOver_append]
    unfold TN.value einsum
    refine sumOver_congr fun b => (sumOver_singletons
      (f := fun a => if tn.openE.map a = idx then prodAt (tn.factors val) a else 0)
      (fun c d hcd => ?_) (fun e he => ?_) b).symm
    · have h1 : ∀ e ∈ usedEdges (tn.factors val) tn.openE, c e = d e := fun e he => hcd e fun hc =>
        (of_decide_eq_true (List.mem_filter.1 hc).2) he
      have h2 : prodAt (tn.factors val) c = prodAt (tn.factors val) d := prodAt_dependsOn _ _ _ fun e he =>
        h1 e (List.mem_dedup.2 (List.mem_append_left _ he))
      have h3 : tn.openE.map c = tn.openE.map d := List.map_congr_left fun e he =>
        h1 e (List.mem_dedup.2 (List.mem_append_right _ he))
      dsimp only
      rw [h2, h3]
    · obtain ⟨hk, hnu⟩ := List.mem_filter.1 he
      obtain ⟨r, hr⟩ := Dict.exists_get? hk
      obtain ⟨l, h1, h2⟩ := hl e r hr (of_decide_eq_true hnu)
      have hd : tn.dom e = l.toFinset := by
        unfold TN.dom
        rw [hr]
        simp [EdgeRec.dom, h1]
      match l, h2 with
      | [], _ => exact absurd ⟨e, r, hr, h1⟩ hV
      | [x], _ => exact ⟨x, by rw [hd]; rfl⟩

end Total

/-! ### Operations on different qubits commute -/

theorem Act.apply_apply {p p' : Act R} (hI : ∀ q ∈ p.ins, q ∉ p'.ins) (hO : ∀ q ∈ p'.outs, q ∉ p.ins)
    (Ψ : (Int → Nat) → R) (w : Int → Nat) : p.apply (p'.apply Ψ) w = sumOver bits (p.ins ++ p'.ins)
      (fun y => p.ten (p.outs.map w ++ p.ins.map y) * p'.ten (p'.outs.map w ++ p'.ins.map y) * Ψ y) w := by
  rw [sumOver_append]
  refine sumOver_congr_reach fun x hx => ?_
  unfold Act.apply
  rw [← sumOver_const_mul]
  refine sumOver_congr_reach fun y hy => ?_
  have e1 : p.ins.map x = p.ins.map y := List.map_congr_left fun q hq => (hy.1 q (hI q hq)).symm
  have e2 : p'.outs.map x = p'.outs.map w := List.map_congr_left fun q hq => hx.1 q (hO q hq)
  rw [e1, e2, mul_assoc]

/-- Operations on different qubits commute. -/
theorem Act.apply_comm {p p' : Act R} (h1 : ∀ q ∈ p.ins, q ∉ p'.ins) (h2 : ∀ q ∈ p'.outs, q ∉ p.ins)
    (h3 : ∀ q ∈ p.outs, q ∉ p'.ins) (Ψ : (Int → Nat) → R) : p.apply (p'.apply Ψ) = p'.apply (p.apply Ψ) := by
  funext w
  rw [Act.apply_apply h1 h2, Act.apply_apply (fun q hq hq' => h1 q hq' hq) h3, sumOver_perm List.perm_append_comm]
  exact sumOver_congr fun y => by rw [mul_comm (p.ten _)]

theorem evolve_append (l l' : List (Act R)) (Ψ : (Int → Nat) → R) : evolve (l ++ l') Ψ = evolve l' (evolve l Ψ) := by
  induction l generalizing Ψ with
  | nil => rfl
  | cons p l ih => exact ih _

namespace Circ

variable {α τ : Type} [HasShape τ] {sh : ShapeFn α} {ten : α → List Nat → R}

theorem evolve_front {l : Circ α} {p : Nm × OpRec α} (h : ∀ p' ∈ l, ∀ q ∈ p.2.qubits, q ∉ p'.2.qubits) (Ψ : (Int → Nat) → R) :
    evolve (l.map fun p => actOf sh ten p.2) ((actOf sh ten p.2).apply Ψ) =
      (actOf sh ten p.2).apply (evolve (l.map fun p => actOf sh ten p.2) Ψ) := by
  induction l generalizing Ψ with
  | nil => rfl
  | cons p' l ih =>
    have hp' := h p' (by simp)
    have hi : ∀ (r : OpRec α) q, q ∈ (actOf sh ten r).ins → q ∈ r.qubits := fun r q hq => (List.mem_filter.1 hq).1
    have ho : ∀ (r : OpRec α) q, q ∈ (actOf sh ten r).outs → q ∈ r.qubits := fun r q hq => (List.mem_filter.1 hq).1
    rw [List.map_cons, evolve, evolve, Act.apply_comm, ih fun p'' hp'' => h p'' (by simp [hp''])]
    · exact fun q h1 h2 => hp' q (hi _ q h2) (hi _ q h1)
    · exact fun q h1 h2 => hp' q (ho _ q h1) (hi _ q h2)
    · exact fun q h1 h2 => hp' q (hi _ q h2) (ho _ q h1)

/-- The order of operations at the same time does not matter. -/
theorem evolve_order : ∀ {l l' : Circ α}, l.Perm l' → l.Nodup → l.Pairwise (fun p p' => p.2.time ≤ p'.2.time) →
    l'.Pairwise (fun p p' => p.2.time ≤ p'.2.time) →
    (∀ p ∈ l, ∀ p' ∈ l, p ≠ p' → p.2.time = p'.2.time → ∀ q ∈ p.2.qubits, q ∉ p'.2.qubits) → ∀ Ψ : (Int → Nat) → R,
    evolve (l.map fun p => actOf sh ten p.2) Ψ = evolve (l'.map fun p => actOf sh ten p.2) Ψ
  | [], l', hp, _, _, _, _, Ψ => by rw [List.nil_perm.1 hp]
  | p :: l, l', hp, hn, hs, hs', hd, Ψ => by
    obtain ⟨A, B, rfl⟩ := List.append_of_mem (hp.mem_iff.1 List.mem_cons_self)
    have hp' : l.Perm (A ++ B) := by
      have := hp.trans List.perm_middle
      exact this.cons_inv
    obtain ⟨hpl, hn'⟩ := List.nodup_cons.1 hn
    obtain ⟨hs1, hs2⟩ := List.pairwise_cons.1 hs
    rw [List.pairwise_append] at hs'
    obtain ⟨ha, hb, hab⟩ := hs'
    obtain ⟨hb1, hb2⟩ := List.pairwise_cons.1 hb
    have hA : ∀ p' ∈ A, ∀ q ∈ p.2.qubits, q ∉ p'.2.qubits := fun p' hA => by
      have hm : p' ∈ l := hp'.mem_iff.2 (List.mem_append_left _ hA)
      have h1 := hs1 p' hm
      have h2 := hab p' hA p List.mem_cons_self
      exact hd p List.mem_cons_self p' (List.mem_cons_of_mem _ hm) (fun e => hpl (e ▸ hm)) (le_antisymm h1 h2)
    have ih := evolve_order hp' hn' hs2 (List.pairwise_append.2 ⟨ha, hb2, fun a ha b hb => hab a ha b (by simp [hb])⟩)
      (fun a ha b hb => hd a (by simp [ha]) b (by simp [hb])) ((actOf sh ten p.2).apply Ψ)
    rw [List.map_cons, evolve, ih, List.map_append, List.map_append, List.map_cons, evolve_append, evolve_append, evolve,
      evolve_front hA]

/-! ### The order in which the gates are visited -/

theorem visit_fst (c : Circ α) : (c.visit.map fun g => g.2.2) = c.byTime.reverse.flatMap Prod.snd := by
  unfold visit
  rw [List.map_flatMap]
  congr 1
  funext p
  rw [List.map_map]
  exact (List.zipIdx_map_fst 0 p.2)

theorem visit_perm (c : Circ α) : (c.visit.map fun g => g.2.2).reverse.Perm c := by
  refine (List.reverse_perm _).trans ?_
  rw [visit_fst]
  exact ((List.reverse_perm c.byTime).flatMap_right _).trans (inOrder_perm c)

theorem visit_sorted (c : Circ α) : (c.visit.map fun g => g.2.2).reverse.Pairwise fun p p' => p.2.time ≤ p'.2.time := by
  rw [List.pairwise_reverse, visit_fst, List.pairwise_flatMap]
  refine ⟨fun g hg => ?_, ?_⟩
  · obtain ⟨t, -, rfl⟩ := List.mem_map.1 (List.mem_reverse.1 hg)
    refine List.pairwise_of_forall_mem_list fun p hp p' hp' => ?_
    have h1 : p.2.time = t := by simpa using (List.mem_filter.1 hp).2
    have h2 : p'.2.time = t := by simpa using (List.mem_filter.1 hp').2
    omega
  · rw [List.pairwise_reverse]
    unfold byTime
    rw [List.pairwise_map]
    refine (times_pairwise c).imp fun {t t'} ht p' hp' p hp => ?_
    have h1 : p.2.time = t := by simpa using (List.mem_filter.1 hp).2
    have h2 : p'.2.time = t' := by simpa using (List.mem_filter.1 hp').2
    omega

theorem visit_time {c : Circ α} {g : Int × Nat × Nm × OpRec α} (hg : g ∈ c.visit) : g.1 = g.2.2.2.time := by
  obtain ⟨p, hp, hg⟩ := List.mem_flatMap.1 hg
  obtain ⟨t, -, rfl⟩ := List.mem_map.1 (List.mem_reverse.1 hp)
  obtain ⟨⟨x, i⟩, hx, rfl⟩ := List.mem_map.1 hg
  have : x ∈ c.filter fun p => p.2.time = t := (List.mem_zipIdx' hx).2 ▸ List.getElem_mem _
  exact (by simpa using (List.mem_filter.1 this).2 : x.2.time = t).symm

/-- A listing of the circuit in time order is wired. -/
theorem wired_of_valid {c l : Circ α} (h : ∀ q, ∃ l, Timeline c q l ∧ Connectable (wireWord sh q l)) (hp : l.Perm c)
    (hs : l.Pairwise fun p p' => p.2.time ≤ p'.2.time) :
    Wired sh l ∧ ∀ q l', Timeline c q l' → wireWord sh q l' = wireWord sh q l := by
  have key : ∀ q l', Timeline c q l' → touch q l = l' := fun q l' hl' => by
    have h1 : (touch q l).Perm (c.filter fun p => q ∈ p.2.qubits) := hp.filter _
    have h3 : (touch q l).Pairwise fun p p' => p.2.time ≤ p'.2.time := hs.filter _
    have h4 : ((touch q l).map fun p => p.2.time).Nodup := by
      refine ((h1.trans hl'.1.symm).map _).nodup_iff.2 ?_
      rw [List.Nodup, List.pairwise_map]
      exact hl'.2.imp fun h => ne_of_lt h
    rw [List.Nodup, List.pairwise_map] at h4
    exact timeline_unique ⟨h1, (h3.and h4).imp fun h => lt_of_le_of_ne h.1 h.2⟩ hl'
  refine ⟨⟨fun q => ?_, fun q => ?_⟩, fun q l' hl' => ?_⟩
  · obtain ⟨l', h1, h2⟩ := h q
    rw [key q l' h1]; exact h1.2
  · obtain ⟨l', h1, h2⟩ := h q
    rw [← wireWord_touch, key q l' h1]; exact h2
  · rw [← key q l' hl', wireWord_touch]

theorem isPure_valid {I : OpsIface α τ} {c : Circ α} (h : c.isPure I = .ok true) : ∃ s, c.shape I.shape = .ok s := by
  unfold isPure isValid at h
  cases hs : c.shape I.shape with
  | ok s => exact ⟨s, rfl⟩
  | error e => rw [hs] at h; cases e <;> simp at h

theorem sortedVals_eq {d : Dict Int Nm} {f : Int → Nm} (h : ∀ q ∈ d.keys, d.get? q = some (f q)) :
    sortedVals d = (d.keys.insertionSort (· ≤ ·)).map f := by
  unfold sortedVals
  have key : ∀ l : List Int, (∀ q ∈ l, d.get? q = some (f q)) → l.filterMap d.get? = l.map f := fun l => by
    induction l with
    | nil => intro _; rfl
    | cons q l ih =>
      intro hl
      rw [List.filterMap_cons, hl q (by simp), List.map_cons, ih fun q hq => hl q (by simp [hq])]
  exact key _ fun q hq => h q ((List.mem_insertionSort _).1 hq)

theorem sorted_keys {d : Dict Int Nm} (h : d.keys.Nodup) : (d.keys.insertionSort (· ≤ ·)).Pairwise (· < ·) := by
  have h1 := List.pairwise_insertionSort (· ≤ · : Int → Int → Prop) d.keys
  have h2 : (d.keys.insertionSort (· ≤ ·)).Nodup := (List.perm_insertionSort _ _).nodup_iff.2 h
  exact (h1.and h2).imp fun h => lt_of_le_of_ne h.1 h.2

/-- C36: the conversion of a pure circuit succeeds.  The open edges of the network are one per qubit with a free output
at the end and then one per qubit with a free input at the start, both in increasing order.  Its entry at outputs `u`
and inputs `v` is the amplitude at `u` of the state obtained from the basis state `v` by applying the operations one
after the other in time order, whatever the order of operations at the same time. -/
theorem c36_circuit {I : OpsIface α τ} {val : τ → List Nat → R} {c : Circ α} (hn : c.keys.Nodup)
    (hp : c.isPure I = .ok true) (hc : ∀ p ∈ c, Convertible I val ten p.2) :
    ∃ (tn : TN τ) (outQ inQ : List Int), c.convertPure I = .ok tn ∧ outQ.Pairwise (· < ·) ∧ inQ.Pairwise (· < ·) ∧
      (∀ q l, Timeline c q l → (q ∈ outQ ↔ (wireWord I.shape q l).getLast? = some .out) ∧
        (q ∈ inQ ↔ (wireWord I.shape q l).head? = some .inp)) ∧
      tn.shape? = some (List.replicate (outQ.length + inQ.length) (some 2)) ∧
      (∀ idx, tn.value0 val idx = tn.total val idx) ∧
      ∀ l : Circ α, l.Perm c → l.Pairwise (fun p p' => p.2.time ≤ p'.2.time) →
        ∀ u v : Int → Nat, (∀ q ∈ outQ, u q < 2) → (∀ q ∈ inQ, v q < 2) →
        tn.value0 val (outQ.map u ++ inQ.map v) = evolve (l.map fun p => actOf I.shape ten p.2) (basisState inQ v) u := by
  have hfit : Fitting I.shape c := fun p hp => by
    obtain ⟨s, h1, h2, h3, -⟩ := hc p hp
    exact ⟨s, h1, h2, h3⟩
  have hval := (c35_shape_iff hfit).1 (isPure_valid hp)
  obtain ⟨hw, hword⟩ := wired_of_valid hval (visit_perm c) (visit_sorted c)
  have hnames : (c.visit.map fun g => g.2.2.1).Nodup := by
    have h1 : (c.visit.map fun g => g.2.2.1) = (c.visit.map fun g => g.2.2).map Prod.fst := by rw [List.map_map]; rfl
    rw [h1, ← List.nodup_reverse, ← List.map_reverse]
    exact ((visit_perm c).map _).nodup_iff.2 hn
  obtain ⟨s, F, h1, h2, h3, h4, h5⟩ := convLoop_spec (I := I) (val := val) (ten := ten) c.visit [] {}
    ⟨[], [], [], fun _ => .nil, [], fun _ => .nil⟩
    ⟨Draws.nil val, by simp [Dict.keys], rfl, by simp [Dict.keys], by simp [Dict.keys], by simp, by simp⟩
    (Front.ok_nil _ _) ⟨by simp [wireWord], by simp [wireWord], by simp [Known], by simp [Known]⟩
    (Front.computes_nil _ _ _) (by simpa using hw)
    (fun g hg => ⟨visit_time hg, hc g.2.2 ((visit_perm c).mem_iff.1 (List.mem_reverse.2 (List.mem_map.2 ⟨g, hg, rfl⟩)))⟩)
    hnames (by simp [Dict.keys])
  rw [List.append_nil] at h4 h5
  generalize hS : (c.visit.map fun g => g.2.2).reverse = S at *
  have hlive : ∀ q, q ∈ s.dic.keys ↔ q ∈ F.live := fun q => by
    rw [← Dict.get?_isSome, h2.dic q]
    by_cases hq : q ∈ F.live <;> simp [hq]
  have hends : ∀ q, q ∈ s.dicOut.keys ↔ q ∈ F.ends := fun q => by
    rw [← Dict.get?_isSome, h2.dout q]
    by_cases hq : q ∈ F.ends <;> simp [hq]
  have hvo : sortedVals s.dicOut = (s.dicOut.keys.insertionSort (· ≤ ·)).map F.dout :=
    sortedVals_eq fun q hq => by rw [h2.dout q, if_pos ((hends q).1 hq)]
  have hvi : sortedVals s.dicIn = (s.dic.keys.insertionSort (· ≤ ·)).map F.dic := by
    rw [h2.din]
    exact sortedVals_eq fun q hq => by rw [h2.dic q, if_pos ((hlive q).1 hq)]
  have hso := sorted_keys h2.dout_nodup
  have hsi := sorted_keys h2.dic_nodup
  have hmo : ∀ q, q ∈ s.dicOut.keys.insertionSort (· ≤ ·) ↔ q ∈ F.ends := fun q => by
    rw [List.mem_insertionSort, hends]
  have hmi : ∀ q, q ∈ s.dic.keys.insertionSort (· ≤ ·) ↔ q ∈ F.live := fun q => by
    rw [List.mem_insertionSort, hlive]
  generalize s.dicOut.keys.insertionSort (· ≤ ·) = outQ at hvo hso hmo
  generalize s.dic.keys.insertionSort (· ≤ ·) = inQ at hvi hsi hmi
  have hOE : ∀ e, e ∈ outQ.map F.dout ++ inQ.map F.dic ↔ (∃ q ∈ F.live, e = F.dic q) ∨ ∃ q ∈ F.ends, e = F.dout q := fun e => by
    simp only [List.mem_append, List.mem_map, hmo, hmi]
    constructor
    · rintro (⟨q, h, rfl⟩ | ⟨q, h, rfl⟩)
      · exact Or.inr ⟨q, h, rfl⟩
      · exact Or.inl ⟨q, h, rfl⟩
    · rintro (⟨q, h, rfl⟩ | ⟨q, h, rfl⟩)
      · exact Or.inr ⟨q, h, rfl⟩
      · exact Or.inl ⟨q, h, rfl⟩
  have hOEk : ∀ e ∈ outQ.map F.dout ++ inQ.map F.dic, e ∈ s.tn.edges.keys := fun e he =>
    (h2.draws.keys e).2 (h4.legs e (Or.inr ((hOE e).1 he)))
  have htot : ∀ idx, TN.value0 val { s.tn with openE := outQ.map F.dout ++ inQ.map F.dic } idx =
      TN.total val { s.tn with openE := outQ.map F.dout ++ inQ.map F.dic } idx := by
    refine TN.value0_total (tn := { s.tn with openE := outQ.map F.dout ++ inQ.map F.dic }) h2.draws.nodup ?_ ?_
    · intro e he
      rcases List.mem_append.1 (List.mem_dedup.1 he) with he | he
      · obtain ⟨f, hf, he⟩ := List.mem_flatMap.1 he
        exact h2.draws.legs f hf e he
      · exact hOEk e he
    · intro e r hr hnu
      refine h2.draws.loose e r hr fun f hf he => hnu ?_
      exact List.mem_dedup.2 (List.mem_append_left _ (List.mem_flatMap.2 ⟨f, hf, he⟩))
  refine ⟨{ s.tn with openE := outQ.map F.dout ++ inQ.map F.dic }, outQ, inQ, ?_, hso, hsi, fun q l hl => ?_, ?_, htot, ?_⟩
  · unfold convertPure
    rw [hp]
    dsimp only
    rw [h1]
    dsimp only
    rw [hvo, hvi]
  · rw [hword q l hl, hmo, hmi]
    exact ⟨h4.ends q, h4.live q⟩
  · unfold TN.shape?
    dsimp only
    have key : ∀ l : List Nm, (∀ e ∈ l, e ∈ s.tn.edges.keys) →
        l.mapM (fun e => (s.tn.edges.get? e).map EdgeRec.dim) = some (List.replicate l.length (some 2)) := fun l => by
      induction l with
      | nil => intro _; rfl
      | cons e l ih =>
        intro h
        obtain ⟨r, hr⟩ := Dict.exists_get? (h e (by simp))
        rw [List.mapM_cons, ih fun e he => h e (by simp [he]), hr, Option.map_some, (h2.draws.dims e r hr).1]
        rfl
    rw [key _ hOEk]
    simp
  · intro l hlp hls u v hu hv
    -- any time order gives the same
    have hev : evolve (l.map fun p => actOf I.shape ten p.2) (basisState inQ v) u =
        evolve (S.map fun p => actOf I.shape ten p.2) (basisState inQ v) u := by
      have hSc : S.Perm c := hS ▸ visit_perm c
      refine congrFun (evolve_order (hlp.trans hSc.symm) ?_ hls (hS ▸ visit_sorted c) ?_ _) u
      · exact hlp.nodup_iff.2 (List.Nodup.of_map _ hn)
      · intro p hp1 p' hp2 hne ht q hq hq'
        obtain ⟨l', hl', -⟩ := hval q
        have m1 : p ∈ l' := hl'.1.mem_iff.2 (List.mem_filter.2 ⟨hlp.mem_iff.1 hp1, decide_eq_true hq⟩)
        have m2 : p' ∈ l' := hl'.1.mem_iff.2 (List.mem_filter.2 ⟨hlp.mem_iff.1 hp2, decide_eq_true hq'⟩)
        have h6 : l'.Pairwise fun p p' => p.2.time ≠ p'.2.time := hl'.2.imp fun h => ne_of_lt h
        have : Std.Symm fun p p' : Nm × OpRec α => p.2.time ≠ p'.2.time := ⟨fun _ _ h => h.symm⟩
        exact h6.forall m1 m2 hne ht
    rw [hev]
    -- the evolution is the kernel
    have hb : Blind (R := R) (basisState inQ v) fun q => (wireWord I.shape q S).head? = some .out := fun a b hab => by
      unfold basisState
      refine if_congr (forall_congr' fun q => forall_congr' fun hq => ?_) rfl rfl
      rw [hab q]
      intro hc
      rw [(h4.live q).1 ((hmi q).1 hq)] at hc
      cases hc
    rw [h5 _ hb u]
    have hpin : sumOver bits F.live (fun x => F.kernel (F.asg wireQubit x u) * basisState inQ v x) u =
        F.kernel (F.asg wireQubit v u) := by
      have e1 : ∀ x, F.kernel (F.asg wireQubit x u) * basisState inQ v x =
          if F.live.map x = F.live.map v then F.kernel (F.asg wireQubit x u) else 0 := fun x => by
        have e2 : (∀ q ∈ inQ, x q = v q) ↔ F.live.map x = F.live.map v := by
          rw [List.map_inj_left]
          exact forall_congr' fun q => by rw [hmi]
        unfold basisState
        by_cases h : F.live.map x = F.live.map v
        · rw [if_pos h, if_pos (e2.2 h), mul_one]
        · rw [if_neg h, if_neg fun hc => h (e2.1 hc), mul_zero]
      simp only [e1]
      refine (sumOver_pin (fun q hq => Finset.mem_range.2 (hv q ((hmi q).2 hq))) h3.live_nodup
        (fun x => F.kernel (F.asg wireQubit x u)) u).trans ?_
      refine congrArg F.kernel (funext fun e => ?_)
      unfold Front.asg
      by_cases h : wireQubit e ∈ F.live ∧ F.dic (wireQubit e) = e
      · rw [if_pos h, if_pos h]; exact if_pos h.1
      · rw [if_neg h, if_neg h]
    rw [hpin]
    -- the network
    have hfac : TN.factors val { s.tn with openE := outQ.map F.dout ++ inQ.map F.dic } = s.tn.factors val := rfl
    rw [htot, TN.total]
    rw [hfac]
    have hdom : ∀ e ∈ s.tn.edges.keys, TN.dom { s.tn with openE := outQ.map F.dout ++ inQ.map F.dic } e ⊆ Finset.range 2 :=
      fun e he => by
        obtain ⟨r, hr⟩ := Dict.exists_get? he
        unfold TN.dom
        dsimp only
        rw [hr]
        obtain ⟨d1, d2⟩ := h2.draws.dims e r hr
        intro x hx
        cases hf : r.fix with
        | none => simpa [EdgeRec.dom, hf, d1] using hx
        | some l => simp only [EdgeRec.dom, hf, List.mem_toFinset] at hx; exact Finset.mem_range.2 (d2 l hf x hx)
    rw [sumOver_widen (dom' := fun _ => Finset.range 2) h2.draws.nodup hdom]
    have hidx : outQ.map u ++ inQ.map v = (outQ.map F.dout ++ inQ.map F.dic).map (F.asg wireQubit v u) := by
      rw [List.map_append, List.map_map, List.map_map]
      congr 1
      · refine List.map_congr_left fun q hq => ?_
        have hq := (hmo q).1 hq
        show u q = F.asg wireQubit v u (F.dout q)
        unfold Front.asg
        rw [h3.dout_qb q hq, if_neg]
        exact fun hc => h3.differ q hc.1 hq hc.2
      · refine List.map_congr_left fun q hq => ?_
        have hq := (hmi q).1 hq
        show v q = F.asg wireQubit v u (F.dic q)
        unfold Front.asg
        rw [h3.dic_qb q hq, if_pos ⟨hq, rfl⟩]
    have hein : sumOver (fun _ => Finset.range 2) s.tn.edges.keys
        (fun b => open Classical in if ∀ e ∈ s.tn.edges.keys, b e ∈ TN.dom { s.tn with openE := outQ.map F.dout ++ inQ.map F.dic } e then
          (if (outQ.map F.dout ++ inQ.map F.dic).map b = outQ.map u ++ inQ.map v then prodAt (s.tn.factors val) b else 0) else 0)
        (fun _ => 0) = einsum (fun _ => Finset.range 2) F.fs (outQ.map F.dout ++ inQ.map F.dic) (outQ.map u ++ inQ.map v) := by
      rw [einsum_eq_of_mem h2.draws.nodup]
      · refine sumOver_congr_reach fun b hb => ?_
        rw [h2.draws.prod b fun e he => Finset.mem_range.1 (hb.2 e he)]
        have hde : (∀ e ∈ s.tn.edges.keys, b e ∈ TN.dom { s.tn with openE := outQ.map F.dout ++ inQ.map F.dic } e) ↔
            ∀ e ∈ s.tn.edges.keys, b e ∈ s.tn.dom e := Iff.rfl
        by_cases hA : ∀ e ∈ s.tn.edges.keys, b e ∈ s.tn.dom e
        · rw [if_pos (hde.2 hA), if_pos hA]
        · rw [if_neg fun h => hA (hde.1 h), if_neg hA]; simp
      · intro e
        rw [mem_usedEdges, h2.draws.keys]
        refine ⟨Or.inl, fun h => h.elim id fun h => h4.legs e (Or.inr ((hOE e).1 h))⟩
    refine hein.trans ?_
    rw [hidx]
    refine einsum_at (fun e he => ?_) h3.closed_nodup fun e => ?_
    · rw [Finset.mem_range]
      unfold Front.asg
      rcases (hOE e).1 he with ⟨q, hq, rfl⟩ | ⟨q, hq, rfl⟩
      · rw [h3.dic_qb q hq, if_pos ⟨hq, rfl⟩]; exact hv q ((hmi q).2 hq)
      · rw [h3.dout_qb q hq, if_neg fun hc => h3.differ q hc.1 hq hc.2]; exact hu q ((hmo q).2 hq)
    · constructor
      · intro he
        refine ⟨h4.legs e (Or.inl he), fun hc => ?_⟩
        rcases (hOE e).1 hc with ⟨q, hq, rfl⟩ | ⟨q, hq, rfl⟩
        · exact h3.dic_open q hq he
        · exact h3.dout_open q hq he
      · rintro ⟨⟨f, hf, he⟩, hno⟩
        rcases h3.legs f hf e he with h | h | h
        · exact h
        · exact absurd ((hOE e).2 (Or.inl h)) hno
        · exact absurd ((hOE e).2 (Or.inr h)) hno

/-! ### An example: a state, a gate, a controlled gate and a measurement -/

/-- Four operations. -/
inductive ToyOp where
  | zero | gate | cnot | one
  deriving DecidableEq

/-- Their shapes, tensors and markers. -/
def toyOps : OpsIface ToyOp (TVal Int) where
  shape
    | .zero => .ok [[.o]]
    | .gate => .ok [[.i, .o]]
    | .cnot => .ok [[.c], [.i, .o]]
    | .one => .ok [[.i]]
  pure _ := .ok true
  basis
    | .zero => some (true, 0)
    | .one => some (false, 1)
    | _ => none
  tensor
    | .gate => .ok (arrVal [2, 2] fun l => match l with | [o, i] => 1 + 2 * o + i | _ => 0)
    | .cnot => .ok (arrVal [2, 2, 2, 2] fun l => match l with
      | [p, o, c, i] => if p = c ∧ (o + c + i) % 2 = 0 then 1 else 0
      | _ => 0)
    | _ => .error .value

/-- The matrix entries. -/
def toyTen : ToyOp → List Nat → Int
  | .zero, l => if l = [0] then 1 else 0
  | .one, l => if l = [1] then 1 else 0
  | .gate, [o, i] => 1 + 2 * o + i
  | .cnot, [p, o, c, i] => if p = c ∧ (o + c + i) % 2 = 0 then 1 else 0
  | _, _ => 0

/-- A state prepared on qubit 1, a gate on qubit 0, a controlled gate on both, a measurement of qubit 1; the entries
are not listed in time order. -/
def toyCirc : Circ ToyOp :=
  [(.str "m", ⟨.one, 3, [1]⟩), (.str "s", ⟨.zero, 0, [1]⟩), (.str "g", ⟨.gate, 1, [0]⟩), (.str "x", ⟨.cnot, 2, [0, 1]⟩)]

theorem toy_convertible : ∀ p ∈ toyCirc, Convertible toyOps (TVal.val (R := Int)) toyTen p.2 := by
  intro p hp
  simp only [toyCirc, List.mem_cons, List.not_mem_nil, or_false] at hp
  rcases hp with rfl | rfl | rfl | rfl
  · exact ⟨_, rfl, rfl, by decide, by decide, rfl, by decide⟩
  · exact ⟨_, rfl, rfl, by decide, by decide, rfl, by decide⟩
  · refine ⟨_, rfl, rfl, by decide, _, rfl, rfl, funext fun l => ?_⟩
    unfold arrVal
    rw [TVal.val]
    rcases l with _ | ⟨a, _ | ⟨b, _ | ⟨c, l⟩⟩⟩ <;> rfl
  · refine ⟨_, rfl, rfl, by decide, _, rfl, rfl, funext fun l => ?_⟩
    unfold arrVal
    rw [TVal.val]
    rcases l with _ | ⟨a, _ | ⟨b, _ | ⟨c, _ | ⟨d, _ | ⟨e, l⟩⟩⟩⟩⟩ <;> rfl

/-- The hypotheses of `c36_circuit` are met. -/
example : Dict.keys toyCirc |>.Nodup := by decide
example : toyCirc.isPure toyOps = .ok true := by decide
example := c36_circuit (c := toyCirc) (by decide) (by decide) toy_convertible

/-- The right hand side of the theorem for the example: the gate has entry 3 from 0 to 1, and measuring 1 selects it. -/
example : evolve ((inOrder toyCirc).map fun p => actOf toyOps.shape toyTen p.2) (basisState [0] fun _ => 0) (fun _ => 1) = 3 ∧
    evolve ((inOrder toyCirc).map fun p => actOf toyOps.shape toyTen p.2) (basisState [0] fun _ => 0) (fun _ => 0) = 0 := by
  decide

end Circ

end Verif
