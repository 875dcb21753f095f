import Verif.Spec.Trace
import Verif.Lemmas.NestCirc
import Verif.Lemmas.Algebra
import Verif.Lemmas.OperAdj
/-!
# Operations that keep the trace, one after another
-/

set_option linter.unusedSectionVars false

namespace Verif

variable {R : Type} [CommSemiring R]

/-- A density matrix on the qubits `Q`. -/
def DependsOn2 (ρ : (Int → Nat) → (Int → Nat) → R) (Q : List Int) : Prop :=
  ∀ a b a' b' : Int → Nat, (∀ q ∈ Q, a q = b q) → (∀ q ∈ Q, a' q = b' q) → ρ a a' = ρ b b'

theorem applyDens_dependsOn {p : Act R} {Q : List Int} {ρ : (Int → Nat) → (Int → Nat) → R} (hρ : DependsOn2 ρ Q) :
    DependsOn2 (p.applyDens ρ) (p.after Q) := by
  intro a b a' b' h h'
  unfold Act.applyDens
  have e1 : p.outs.map a = p.outs.map b := List.map_congr_left fun q hq => h q (mem_after.2 (Or.inr hq))
  have e2 : p.outs.map a' = p.outs.map b' := List.map_congr_left fun q hq => h' q (mem_after.2 (Or.inr hq))
  rw [e1, e2]
  have hin : ∀ x, sumOver bits p.ins (fun x' => p.ten (p.outs.map b ++ p.ins.map x ++ p.outs.map b' ++ p.ins.map x') * ρ x x') a' =
      sumOver bits p.ins (fun x' => p.ten (p.outs.map b ++ p.ins.map x ++ p.outs.map b' ++ p.ins.map x') * ρ x x') b' := fun x => by
    refine sumOver_base_dep (l' := Q ++ p.ins) (fun y z hyz => ?_) fun q hq hqi =>
      h' q (mem_after.2 (Or.inl ⟨(List.mem_append.1 hq).resolve_right hqi, hqi⟩))
    have e3 : p.ins.map y = p.ins.map z := List.map_congr_left fun q hq => hyz q (List.mem_append_right _ hq)
    show p.ten (_ ++ p.ins.map y) * _ = p.ten (_ ++ p.ins.map z) * _
    rw [e3, hρ x x y z (fun _ _ => rfl) fun q hq => hyz q (List.mem_append_left _ hq)]
  refine (sumOver_congr fun x => hin x).trans ?_
  refine sumOver_base_dep (l' := Q ++ p.ins) (fun y z hyz => ?_) fun q hq hqi =>
      h q (mem_after.2 (Or.inl ⟨(List.mem_append.1 hq).resolve_right hqi, hqi⟩))
  have e3 : p.ins.map y = p.ins.map z := List.map_congr_left fun q hq => hyz q (List.mem_append_right _ hq)
  refine sumOver_congr fun x' => ?_
  show p.ten (_ ++ p.ins.map y ++ _ ++ _) * _ = p.ten (_ ++ p.ins.map z ++ _ ++ _) * _
  rw [e3, hρ y z x' x' (fun q hq => hyz q (List.mem_append_left _ hq)) fun _ _ => rfl]

theorem evolveDens_dependsOn {l : List (Act R)} {Q : List Int} {ρ : (Int → Nat) → (Int → Nat) → R} (hρ : DependsOn2 ρ Q) :
    DependsOn2 (evolveDens l ρ) (afterAll Q l) := by
  induction l generalizing Q ρ with
  | nil => exact hρ
  | cons p l ih => exact ih (applyDens_dependsOn hρ)

theorem sum_bits {l : List Int} (hn : l.Nodup) (g : List Nat → R) (a : Int → Nat) :
    sumOver bits l (fun w => g (l.map w)) a = sumIdx (List.replicate l.length 2) g :=
  sumOver_eq_sumIdx hn (by simp) (fun k e d _ hd => by
    rw [List.getElem?_replicate] at hd
    split at hd
    · cases hd; rfl
    · cases hd) g a

/-- One operation. -/
theorem trace_applyDens {p : Act R} {Q : List Int} (hQ : Q.Nodup) (hi : ∀ q ∈ p.ins, q ∈ Q) (ho : ∀ q ∈ p.outs, q ∈ Q → q ∈ p.ins)
    (hni : p.ins.Nodup) (hno : p.outs.Nodup) (hk : KeepsTrace p.ten p.outs.length p.ins.length)
    {ρ : (Int → Nat) → (Int → Nat) → R} (hρ : DependsOn2 ρ Q) {a : Int → Nat} :
    sumOver bits (p.after Q) (fun w => p.applyDens ρ w w) a = sumOver bits Q (fun x => ρ x x) a := by
  rw [sumOver_perm (split_perm hQ hni hi)]
  unfold Act.after
  rw [sumOver_append, sumOver_append]
  refine sumOver_congr fun b => ?_
  have e1 : sumOver bits p.outs (fun w => p.applyDens ρ w w) b =
      sumOver bits p.outs (fun w => sumOver bits p.ins (fun x => sumOver bits p.ins (fun x' =>
        p.ten (p.outs.map w ++ p.ins.map x ++ p.outs.map w ++ p.ins.map x') * ρ x x') b) b) b := by
    refine sumOver_congr_reach fun w hw => ?_
    unfold Act.applyDens
    have hoff : ∀ q ∈ Q ++ p.ins, q ∉ p.ins → w q = b q := fun q hq hqi =>
      hw.1 q fun hqo => hqi (ho q hqo ((List.mem_append.1 hq).resolve_right hqi))
    have hin : ∀ x, sumOver bits p.ins (fun x' => p.ten (p.outs.map w ++ p.ins.map x ++ p.outs.map w ++ p.ins.map x') * ρ x x') w =
        sumOver bits p.ins (fun x' => p.ten (p.outs.map w ++ p.ins.map x ++ p.outs.map w ++ p.ins.map x') * ρ x x') b := fun x => by
      refine sumOver_base_dep (l' := Q ++ p.ins) (fun y z hyz => ?_) hoff
      have e3 : p.ins.map y = p.ins.map z := List.map_congr_left fun q hq => hyz q (List.mem_append_right _ hq)
      show p.ten (_ ++ p.ins.map y) * _ = p.ten (_ ++ p.ins.map z) * _
      rw [e3, hρ x x y z (fun _ _ => rfl) fun q hq => hyz q (List.mem_append_left _ hq)]
    refine (sumOver_congr fun x => hin x).trans ?_
    refine sumOver_base_dep (l' := Q ++ p.ins) (fun y z hyz => ?_) hoff
    have e3 : p.ins.map y = p.ins.map z := List.map_congr_left fun q hq => hyz q (List.mem_append_right _ hq)
    refine sumOver_congr fun x' => ?_
    show p.ten (_ ++ p.ins.map y ++ _ ++ _) * _ = p.ten (_ ++ p.ins.map z ++ _ ++ _) * _
    rw [e3, hρ y z x' x' (fun q hq => hyz q (List.mem_append_left _ hq)) fun _ _ => rfl]
  rw [e1, sumOver_comm]
  refine sumOver_congr_reach fun x hx => ?_
  rw [sumOver_comm]
  have e2 : ∀ x', Reach bits p.ins b x' → sumOver bits p.outs (fun w => p.ten (p.outs.map w ++ p.ins.map x ++ p.outs.map w ++ p.ins.map x') * ρ x x') b =
      if p.ins.map x' = p.ins.map x then ρ x x' else 0 := fun x' hx' => by
    have hb : ∀ y, Reach bits p.ins b y → Bits (p.ins.map y) p.ins.length := fun y hy => ⟨by simp, fun v hv => by
      obtain ⟨q, hq, rfl⟩ := List.mem_map.1 hv
      exact Finset.mem_range.1 (hy.2 q hq)⟩
    rw [sumOver_mul_right_indep (g := fun _ => ρ x x') fun _ _ _ => rfl,
      sum_bits hno (fun v => p.ten (v ++ p.ins.map x ++ v ++ p.ins.map x')) b, hk _ _ (hb x hx) (hb x' hx'), ite_mul, one_mul, zero_mul]
    exact if_congr eq_comm rfl rfl
  refine (sumOver_congr_reach fun x' hx' => e2 x' hx').trans ?_
  rw [sumOver_pin (fun q hq => hx.2 q hq) hni]
  refine hρ _ _ _ _ (fun _ _ => rfl) fun q _ => ?_
  by_cases hq : q ∈ p.ins
  · exact if_pos hq
  · exact (if_neg hq).trans (hx.1 q hq).symm

/-- A sequence of operations. -/
theorem trace_evolveDens {l : List (Act R)} {Q : List Int} (hf : Flows Q l) (hk : ∀ p ∈ l, KeepsTrace p.ten p.outs.length p.ins.length)
    {ρ : (Int → Nat) → (Int → Nat) → R} (hρ : DependsOn2 ρ Q) {a : Int → Nat} :
    sumOver bits (afterAll Q l) (fun w => evolveDens l ρ w w) a = sumOver bits Q (fun x => ρ x x) a := by
  induction l generalizing Q ρ with
  | nil => rfl
  | cons p l ih =>
    obtain ⟨hQ, hi, ho, hni, hno, hf'⟩ := hf
    refine (ih hf' (fun p hp => hk p (List.mem_cons_of_mem _ hp)) (applyDens_dependsOn hρ)).trans ?_
    exact trace_applyDens hQ hi ho hni hno (hk p List.mem_cons_self) hρ

theorem basisDens_dependsOn (Q : List Int) (v v' : Int → Nat) : DependsOn2 (basisDens (R := R) Q v v') Q := fun a b a' b' h h' => by
  unfold basisDens
  refine if_congr (and_congr ?_ ?_) rfl rfl
  · exact ⟨fun k q hq => by rw [← h q hq]; exact k q hq, fun k q hq => by rw [h q hq]; exact k q hq⟩
  · exact ⟨fun k q hq => by rw [← h' q hq]; exact k q hq, fun k q hq => by rw [h' q hq]; exact k q hq⟩

theorem trace_basisDens {Q : List Int} (hQ : Q.Nodup) {v v' : Int → Nat} (hv : ∀ q ∈ Q, v q < 2) (a : Int → Nat) :
    sumOver bits Q (fun x => basisDens (R := R) Q v v' x x) a = if Q.map v = Q.map v' then 1 else 0 := by
  have : (fun x => basisDens (R := R) Q v v' x x) = fun x => if Q.map x = Q.map v then (if Q.map v = Q.map v' then 1 else 0) else 0 := by
    funext x
    unfold basisDens
    rw [← ite_and]
    refine if_congr ?_ rfl rfl
    rw [← List.map_inj_left, ← List.map_inj_left]
    exact ⟨fun h => ⟨h.1, h.1.symm.trans h.2⟩, fun h => ⟨h.1, h.1.trans h.2⟩⟩
  rw [this, sumOver_pin (fun q hq => by simpa [bits] using hv q hq) hQ]

variable {α : Type} {sh : Circ.ShapeFn α} {c : Circ α} {s : List (List Letter)}

/-- The entries of a circuit of operations that keep the trace keep the trace. -/
theorem Circ.keepsTrace (hf : Fitting sh c) (hs : c.shape sh = .ok s) {dens : α → List Nat → R}
    (hk : ∀ p ∈ c, KeepsTrace (dens p.2.op) (actOf sh dens p.2).outs.length (actOf sh dens p.2).ins.length) :
    KeepsTrace (circDens sh dens c) (circOuts sh c).length (circIns sh c).length := by
  intro x x' hx hx'
  obtain ⟨h1, h2⟩ := sorted_flows hf hs dens
  have ho := nodup_of_sorted (circOuts_sorted sh c)
  have hi := nodup_of_sorted (circIns_sorted sh c)
  have hk' : ∀ p ∈ (timeSorted c).map fun p => actOf sh dens p.2, KeepsTrace p.ten p.outs.length p.ins.length := fun p hp => by
    obtain ⟨p', hp', rfl⟩ := List.mem_map.1 hp
    exact hk p' ((timeSorted_perm c).mem_iff.1 hp')
  have hd := basisDens_dependsOn (R := R) (circIns sh c) (readAt (circIns sh c) x) (readAt (circIns sh c) x')
  have hd' := evolveDens_dependsOn (l := (timeSorted c).map fun p => actOf sh dens p.2) hd
  have key := trace_evolveDens (a := fun _ => 0) h1 hk' hd
  have hperm : (afterAll (circIns sh c) ((timeSorted c).map fun p => actOf sh dens p.2)).Perm (circOuts sh c) :=
    (List.perm_ext_iff_of_nodup h1.after_nodup ho).2 h2
  rw [sumOver_perm hperm, trace_basisDens hi fun q hq => readAt_bits hx.2 q, map_readAt hi (by rw [hx.1]), map_readAt hi (by rw [hx'.1]),
    List.take_of_length_le (by rw [hx.1]), List.take_of_length_le (by rw [hx'.1])] at key
  rw [← key, ← sum_bits ho _ fun _ => 0]
  refine sumOver_congr fun w => ?_
  unfold circDens
  dsimp only
  have l1 : ((circOuts sh c).map w).length = (circOuts sh c).length := List.length_map _
  have d1 : ((circOuts sh c).map w ++ x ++ (circOuts sh c).map w ++ x').drop (circOuts sh c).length = x ++ ((circOuts sh c).map w ++ x') := by
    rw [List.append_assoc, List.append_assoc, List.drop_left' l1]
  have d2 : ((circOuts sh c).map w ++ x ++ (circOuts sh c).map w ++ x').drop ((circOuts sh c).length + (circIns sh c).length) = (circOuts sh c).map w ++ x' := by
    rw [List.append_assoc, List.drop_left' (by rw [List.length_append, l1, hx.1])]
  have d3 : ((circOuts sh c).map w ++ x ++ (circOuts sh c).map w ++ x').drop ((circOuts sh c).length + (circIns sh c).length + (circOuts sh c).length) = x' := by
    rw [List.drop_left' (by rw [List.length_append, List.length_append, l1, hx.1])]
  rw [d1, d2, d3]
  have hb : basisDens (R := R) (circIns sh c) (readAt (circIns sh c) (x ++ ((circOuts sh c).map w ++ x'))) (readAt (circIns sh c) x') =
      basisDens (circIns sh c) (readAt (circIns sh c) x) (readAt (circIns sh c) x') := by
    funext a a'
    unfold basisDens
    refine if_congr (and_congr_left' ⟨fun h q hq => ?_, fun h q hq => ?_⟩) rfl rfl
    · rw [h q hq, Oper.readAt_append hx.1 hq]
    · rw [h q hq, Oper.readAt_append hx.1 hq]
  rw [hb]
  refine hd' _ _ _ _ (fun q hq => ?_) fun q hq => ?_
  · rw [List.append_assoc, List.append_assoc]; exact readAt_map ((h2 q).1 hq)
  · exact readAt_map ((h2 q).1 hq)

end Verif
