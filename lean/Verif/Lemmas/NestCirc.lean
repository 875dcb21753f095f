import Verif.Lemmas.Nest
import Verif.Props.Density
/-!
# A circuit used as an operation acts as its operations one after the other
-/

set_option linter.unusedSectionVars false

namespace Verif

variable {R : Type} [CommSemiring R]

/-- The operation `p` acts as the sequence `S` on states in which the qubits `B` hold nothing. -/
def Unfolds (p : Act R) (B : List Int) (S : List (Act R)) : Prop :=
  ∀ (P : List Int) (Ψ : (Int → Nat) → R), DependsOn Ψ P → (∀ q ∈ B, q ∉ P) → ∀ u, Good u → p.apply Ψ u = evolve S Ψ u

/-- The qubits that must hold nothing do so, `P` being the qubits present at the beginning. -/
def Steady (P : List Int) : List (Act R × List Int) → Prop
  | [] => True
  | x :: l => (∀ q ∈ x.2, q ∉ P) ∧ Steady (x.1.after P) l

theorem unfold_chain {ι : Type} {f : ι → Act R} {B : ι → List Int} {S : ι → List (Act R)} {l : List ι}
    (hl : ∀ i ∈ l, Unfolds (f i) (B i) (S i)) : ∀ {P : List Int} {Ψ : (Int → Nat) → R}, DependsOn Ψ P →
    Steady P (l.map fun i => (f i, B i)) → ∀ {u : Int → Nat}, Good u → evolve (l.map f) Ψ u = evolve (l.flatMap S) Ψ u := by
  induction l with
  | nil => intros; rfl
  | cons i l ih =>
    intro P Ψ hΨ hs u hu
    rw [List.map_cons, evolve, ih (fun i hi => hl i (by simp [hi])) (apply_dependsOn hΨ) hs.2 hu, List.flatMap_cons, evolve_append]
    exact evolve_good (fun w hw => hl i (by simp) P Ψ hΨ hs.1 w hw) hu

theorem steady_twice {l : List (Act R × List Int)} : ∀ {P P2 : List Int}, (∀ k, k ∈ P2 → k / 2 ∈ P) → Steady P l →
    Steady P2 (l.map fun x => (x.1.twice, twice x.2)) := by
  induction l with
  | nil => intros; trivial
  | cons x l ih =>
    intro P P2 h hs
    refine ⟨fun q hq hc => hs.1 _ (mem_twice.1 hq) (h q hc), ih (P := x.1.after P) (fun k hk => ?_) hs.2⟩
    rw [mem_after] at hk ⊢
    have hi : k ∈ x.1.twice.ins ↔ k / 2 ∈ x.1.ins := mem_twice
    have ho : k ∈ x.1.twice.outs ↔ k / 2 ∈ x.1.outs := mem_twice
    rw [hi, ho] at hk
    exact hk.imp (fun hk => ⟨h k hk.1, hk.2⟩) id

theorem twice_ten (p : Act R) (W X : Int → Nat) : p.twice.ten (p.twice.outs.map W ++ p.twice.ins.map X) =
    p.ten (p.outs.map (fun q => W (2 * q)) ++ p.ins.map (fun q => X (2 * q)) ++ p.outs.map (fun q => W (2 * q + 1)) ++
      p.ins.map fun q => X (2 * q + 1)) := by
  show twiceTen p.outs.length p.ins.length p.ten ((Verif.twice p.outs).map W ++ (Verif.twice p.ins).map X) = _
  unfold Verif.twice
  rw [List.map_append, List.map_append, List.map_map, List.map_map, List.map_map, List.map_map]
  exact twiceTen_append _ (by simp) (by simp) (by simp)

theorem join_split (W : Int → Nat) : joinAsg (fun q => W (2 * q)) (fun q => W (2 * q + 1)) = W := by
  funext k
  unfold joinAsg
  split
  · show W (2 * (k / 2)) = W k
    congr 1; omega
  · show W (2 * (k / 2) + 1) = W k
    congr 1; omega

theorem joinAsg_good {w w' : Int → Nat} (h : Good w) (h' : Good w') : Good (joinAsg w w') := fun k => by
  unfold joinAsg
  split
  · exact h _
  · exact h' _

theorem inQubits_map {π : Int → Int} (hπ : Function.Injective π) (s : List (List Letter)) (qs : List Int) :
    inQubits s (qs.map π) = (inQubits s qs).map π := by
  unfold inQubits
  rw [List.filter_map]
  congr 1
  exact List.filter_congr fun q _ => by rw [Function.comp, portsAt_map fun a b h => hπ h]

theorem outQubits_map {π : Int → Int} (hπ : Function.Injective π) (s : List (List Letter)) (qs : List Int) :
    outQubits s (qs.map π) = (outQubits s qs).map π := by
  unfold outQubits
  rw [List.filter_map]
  congr 1
  exact List.filter_congr fun q _ => by rw [Function.comp, portsAt_map fun a b h => hπ h]

/-- The qubits on whose wires the operation begins with an output. -/
def freshQubits (s : List (List Letter)) (qs : List Int) : List Int := qs.filter fun q => (portsAt s qs q).head? = some .out

theorem mem_freshQubits {s : List (List Letter)} {qs : List Int} {q : Int} :
    q ∈ freshQubits s qs ↔ (portsAt s qs q).head? = some .out := by
  unfold freshQubits
  rw [List.mem_filter, decide_eq_true_eq]
  refine ⟨fun h => h.2, fun h => ⟨?_, h⟩⟩
  by_contra hq
  rw [portsAt_nil hq] at h
  cases h

namespace Circ

variable {α : Type} {sh : ShapeFn α} {ten : α → List Nat → R}

/-- The circuit on renamed qubits. -/
def renamed (π : Int → Int) (l : Circ α) : Circ α := l.map fun p => (p.1, ⟨p.2.op, p.2.time, p.2.qubits.map π⟩)

theorem renamed_acts {π : Int → Int} (hπ : Function.Injective π) (l : Circ α) (ten : α → List Nat → R) :
    (renamed π l).map (fun p => actOf sh ten p.2) = (l.map fun p => actOf sh ten p.2).map (Act.rename π) := by
  unfold renamed
  rw [List.map_map, List.map_map]
  refine List.map_congr_left fun p _ => ?_
  show actOf sh ten ⟨p.2.op, p.2.time, p.2.qubits.map π⟩ = Act.rename π (actOf sh ten p.2)
  unfold actOf Act.rename
  rw [inQubits_map hπ, outQubits_map hπ]

theorem renamed_fitting {π : Int → Int} (hπ : Function.Injective π) {l : Circ α} (h : Fitting sh l) : Fitting sh (renamed π l) := by
  intro p hp
  obtain ⟨p', hp', rfl⟩ := List.mem_map.1 hp
  obtain ⟨s, h1, h2, h3⟩ := h p' hp'
  exact ⟨s, h1, by simpa using h2, h3.map hπ⟩

theorem renamed_word {π : Int → Int} (hπ : Function.Injective π) (l : Circ α) (q : Int) :
    wireWord sh (π q) (renamed π l) = wireWord sh q l := by
  unfold wireWord renamed
  rw [List.flatMap_map]
  refine List.flatMap_congr fun p _ => ?_
  exact portsAt_map (fun a b h => hπ h) q

theorem renamed_word_out {π : Int → Int} (l : Circ α) {q : Int} (h : ∀ q', q ≠ π q') : wireWord sh q (renamed π l) = [] := by
  unfold wireWord renamed
  rw [List.flatMap_map, List.flatMap_eq_nil_iff]
  intro p _
  refine portsAt_nil fun hc => ?_
  obtain ⟨q', -, e⟩ := List.mem_map.1 hc
  exact h q' e.symm

/-- Along a circuit the qubits at which an operation begins with an output hold nothing. -/
theorem steady_of_wired : ∀ {l : Circ α} {P : List Int}, (∀ q, Connectable (wireWord sh q l)) →
    (∀ q, (wireWord sh q l).head? = some .out → q ∉ P) →
    Steady P (l.map fun p => (actOf sh ten p.2, freshQubits (shapeD sh p.2.op) p.2.qubits))
  | [], _, _, _ => trivial
  | p :: l, P, hc, ho => by
    have hww : ∀ q, wireWord sh q (p :: l) = portsAt (shapeD sh p.2.op) p.2.qubits q ++ wireWord sh q l := fun q => wireWord_cons q p l
    refine ⟨fun q hq => ?_, steady_of_wired (fun q => ?_) fun q hq => ?_⟩
    · have hq := mem_freshQubits.1 hq
      refine ho q ?_
      rw [hww]
      cases hw : portsAt (shapeD sh p.2.op) p.2.qubits q with
      | nil => rw [hw] at hq; cases hq
      | cons x w => rw [hw] at hq; exact hq
    · have := hc q
      rw [hww] at this
      exact List.IsChain.right_of_append this
    · rw [mem_after]
      have hch := hc q
      rw [hww] at hch
      have hj := (List.isChain_append.1 hch).2.2
      rintro (⟨h1, h2⟩ | h1)
      · cases hw : portsAt (shapeD sh p.2.op) p.2.qubits q with
        | nil => exact ho q (by rw [hww, hw]; exact hq) h1
        | cons x w =>
          cases x with
          | inp => exact h2 (mem_inQubits.2 (by rw [hw]; rfl))
          | out => exact ho q (by rw [hww, hw]; rfl) h1
      · exact hj .out (mem_outQubits.1 h1) .out hq rfl

section Attached

variable {c : Circ α} {s : List (List Letter)} {qs : List Int} {π : Int → Int}

theorem shape_length (hf : Fitting sh c) (hs : c.shape sh = .ok s) : s.length = (qubitsOf c).length := by
  rw [shape_exact hf hs, List.length_map]

theorem ends_ports (w : List Port) : ((endsWord w).flatMap Letter.ports).head? = w.head? := by
  unfold endsWord
  cases w with
  | nil => rfl
  | cons a w =>
    rw [List.head?_cons]
    cases h : (a :: w).getLast? with
    | none => simp at h
    | some b => cases a <;> cases b <;> rfl

/-- The wires of a circuit seen from outside. -/
theorem outer_ports (hf : Fitting sh c) (hs : c.shape sh = .ok s) (hπ : Function.Injective π) (hq : (qubitsOf c).map π = qs) (q : Int) :
    portsAt s qs (π q) = (endsWord (wireWord sh q (timeSorted c))).flatMap Letter.ports := by
  rw [shape_exact hf hs, ← hq, portsAt_map (fun a b h => hπ h)]
  have : ∀ (l : List Int) (f : Int → List Letter), l.Nodup → portsAt (l.map f) l q = if q ∈ l then (f q).flatMap Letter.ports else [] := by
    intro l f
    induction l with
    | nil => intro _; rfl
    | cons a l ih =>
      intro hn
      obtain ⟨h1, h2⟩ := List.nodup_cons.1 hn
      have e : portsAt ((a :: l).map f) (a :: l) q = (if a = q then (f a).flatMap Letter.ports else []) ++ portsAt (l.map f) l q := by
        unfold portsAt
        by_cases h : a = q <;> simp [h]
      rw [e, ih h2]
      by_cases h : a = q
      · subst h; simp [h1]
      · have h' : q ≠ a := fun e => h e.symm
        simp [h, h']
  rw [this _ _ ((qubitsOf_sorted c).imp fun h => ne_of_lt h)]
  split
  · rfl
  · next h =>
    have : wireWord sh q (timeSorted c) = [] := by
      by_contra hne
      obtain ⟨p, hp, hqp⟩ := mem_wire hne
      exact h (mem_qubitsOf.2 ⟨p, (timeSorted_perm c).mem_iff.1 hp, hqp⟩)
    rw [this]; rfl

theorem outer_ins (hf : Fitting sh c) (hs : c.shape sh = .ok s) (hπ : Function.Injective π) (hq : (qubitsOf c).map π = qs) :
    inQubits s qs = (circIns sh c).map π := by
  unfold inQubits circIns
  conv_lhs => rw [← hq, List.filter_map]
  congr 1
  refine List.filter_congr fun q _ => ?_
  show decide ((portsAt s ((qubitsOf c).map π) (π q)).head? = some .inp) = _
  rw [hq, outer_ports hf hs hπ hq, ends_ports]

theorem outer_outs (hf : Fitting sh c) (hs : c.shape sh = .ok s) (hπ : Function.Injective π) (hq : (qubitsOf c).map π = qs) :
    outQubits s qs = (circOuts sh c).map π := by
  unfold outQubits circOuts
  conv_lhs => rw [← hq, List.filter_map]
  congr 1
  refine List.filter_congr fun q _ => ?_
  show decide ((portsAt s ((qubitsOf c).map π) (π q)).getLast? = some .out) = _
  rw [hq, outer_ports hf hs hπ hq]
  exact decide_eq_decide.2 (isOut_endsWord _)

theorem wired_sorted (hf : Fitting sh c) (hs : c.shape sh = .ok s) : Wired sh (timeSorted c) :=
  (wired_of_valid ((c35_shape_iff hf).1 ⟨s, hs⟩) (timeSorted_perm c) (timeSorted_sorted c)).1

theorem sorted_fitting (hf : Fitting sh c) : Fitting sh (timeSorted c) := fun p hp => hf p ((timeSorted_perm c).mem_iff.1 hp)

theorem nodup_of_sorted {l : List Int} (h : l.Pairwise (· < ·)) : l.Nodup := h.imp fun h => ne_of_lt h

theorem sorted_flows (hf : Fitting sh c) (hs : c.shape sh = .ok s) (ten : α → List Nat → R) :
    Flows (circIns sh c) ((timeSorted c).map fun p => actOf sh ten p.2) ∧
      ∀ q, q ∈ afterAll (circIns sh c) ((timeSorted c).map fun p => actOf sh ten p.2) ↔ q ∈ circOuts sh c := by
  obtain ⟨h1, h2⟩ := flows_of_wired (ten := ten) (nodup_of_sorted (circIns_sorted sh c)) (sorted_fitting hf) (wired_sorted hf hs).chain
    (fun q hq => mem_circIns.2 hq) (fun q hq hc => by rw [mem_circIns.1 hc] at hq; cases hq)
  refine ⟨h1, fun q => ?_⟩
  rw [h2 q, mem_circOuts]
  refine ⟨fun h => h.elim id fun h => ?_, Or.inl⟩
  have := mem_circIns.1 h.2
  rw [h.1] at this
  cases this

/-- The entries of a circuit, in terms of its operations on the qubits to which it is attached. -/
theorem circMat_attached (hf : Fitting sh c) (hs : c.shape sh = .ok s) (hπ : Function.Injective π) (ten : α → List Nat → R)
    (x w : Int → Nat) : circMat sh ten c (((circOuts sh c).map π).map w ++ ((circIns sh c).map π).map x) =
      evolve ((renamed π (timeSorted c)).map fun p => actOf sh ten p.2) (basisState ((circIns sh c).map π) x) w := by
  rw [renamed_acts hπ, rename_basis, rename_evolve hπ]
  unfold circMat
  rw [List.map_map, List.map_map, List.drop_left' (by simp)]
  have e : (basisState (circIns sh c) (readAt (circIns sh c) ((circIns sh c).map (x ∘ π))) : (Int → Nat) → R) =
      basisState (circIns sh c) (x ∘ π) := by
    funext w
    unfold basisState
    refine if_congr ?_ rfl rfl
    exact ⟨fun h q hq => by rw [h q hq, readAt_map' hq], fun h q hq => by rw [h q hq, readAt_map' hq]⟩
  rw [e]
  refine evolve_dependsOn (basisState_dependsOn _ _) _ _ fun q hq => ?_
  rw [(sorted_flows hf hs ten).2] at hq
  rw [readAt_map hq]

/-- The same for density matrices. -/
theorem circDens_attached (hf : Fitting sh c) (hs : c.shape sh = .ok s) (hπ : Function.Injective π) (ten : α → List Nat → R)
    (x x' w w' : Int → Nat) : circDens sh ten c (((circOuts sh c).map π).map w ++ ((circIns sh c).map π).map x ++
        ((circOuts sh c).map π).map w' ++ ((circIns sh c).map π).map x') =
      evolveDens ((renamed π (timeSorted c)).map fun p => actOf sh ten p.2) (basisDens ((circIns sh c).map π) x x') w w' := by
  rw [renamed_acts hπ, rename_basisDens, rename_evolveDens hπ]
  unfold circDens
  dsimp only
  simp only [List.map_map]
  have d1 : ∀ a b c d : List Nat, List.drop (a.length + b.length) (a ++ b ++ c ++ d) = c ++ d := fun a b c d => by
    rw [List.append_assoc]; exact List.drop_left' (by simp)
  have d2 : ∀ a b c d : List Nat, List.drop (a.length + b.length + c.length) (a ++ b ++ c ++ d) = d := fun a b c d =>
    List.drop_left' (by simp; omega)
  have d3 : ∀ a b c d : List Nat, List.drop a.length (a ++ b ++ c ++ d) = b ++ (c ++ d) := fun a b c d => by
    rw [List.append_assoc, List.append_assoc]; exact List.drop_left
  have e1 := d1 ((circOuts sh c).map (w ∘ π)) ((circIns sh c).map (x ∘ π)) ((circOuts sh c).map (w' ∘ π)) ((circIns sh c).map (x' ∘ π))
  have e2 := d2 ((circOuts sh c).map (w ∘ π)) ((circIns sh c).map (x ∘ π)) ((circOuts sh c).map (w' ∘ π)) ((circIns sh c).map (x' ∘ π))
  have e3 := d3 ((circOuts sh c).map (w ∘ π)) ((circIns sh c).map (x ∘ π)) ((circOuts sh c).map (w' ∘ π)) ((circIns sh c).map (x' ∘ π))
  simp only [List.length_map] at e1 e2 e3
  rw [e1, e2, e3, List.append_assoc, List.append_assoc]
  have e : (basisDens (circIns sh c) (readAt (circIns sh c) ((circIns sh c).map (x ∘ π) ++ ((circOuts sh c).map (w' ∘ π) ++ (circIns sh c).map (x' ∘ π))))
      (readAt (circIns sh c) ((circIns sh c).map (x' ∘ π))) : (Int → Nat) → (Int → Nat) → R) =
      basisDens (circIns sh c) (x ∘ π) (x' ∘ π) := by
    funext w w'
    unfold basisDens
    refine if_congr ?_ rfl rfl
    refine and_congr ?_ ?_
    · exact ⟨fun h q hq => by rw [h q hq, readAt_map hq], fun h q hq => by rw [h q hq, readAt_map hq]⟩
    · exact ⟨fun h q hq => by rw [h q hq, readAt_map' hq], fun h q hq => by rw [h q hq, readAt_map' hq]⟩
  rw [e, ← splitDens_join (evolveDens _ _), ← splitDens_join (evolveDens _ _), ← evolve_twice, ← basisState_twice]
  obtain ⟨h1, h2⟩ := sorted_flows hf hs ten
  refine evolve_dependsOn (basisState_dependsOn _ _) _ _ fun k hk => ?_
  rw [(flows_twice h1 (twice_nodup h1.nodup) fun k => mem_twice).2, h2] at hk
  unfold joinAsg
  split
  · rw [readAt_map hk]
  · rw [readAt_map hk]

theorem fresh_of_ins (hf : Fitting sh c) (hs : c.shape sh = .ok s) (hπ : Function.Injective π) (hq : (qubitsOf c).map π = qs)
    {p : Act R} (hp : p ∈ (renamed π (timeSorted c)).map fun p => actOf sh ten p.2) {q : Int} (hi : q ∈ p.ins)
    (hn : q ∉ (circIns sh c).map π) : q ∈ freshQubits s qs := by
  obtain ⟨r, hr, rfl⟩ := List.mem_map.1 hp
  obtain ⟨r', hr', rfl⟩ := List.mem_map.1 hr
  have hi : q ∈ inQubits (shapeD sh r'.2.op) (r'.2.qubits.map π) := hi
  rw [inQubits_map hπ] at hi
  obtain ⟨q', hq', rfl⟩ := List.mem_map.1 hi
  rw [mem_freshQubits, outer_ports hf hs hπ hq, ends_ports]
  have hw : wireWord sh q' (timeSorted c) ≠ [] := fun e => by
    have := List.flatMap_eq_nil_iff.1 e r' hr'
    rw [mem_inQubits, this] at hq'
    cases hq'
  have hn' : q' ∉ circIns sh c := fun h => hn (List.mem_map.2 ⟨q', h, rfl⟩)
  rw [mem_circIns] at hn'
  cases hw' : wireWord sh q' (timeSorted c) with
  | nil => exact absurd hw' hw
  | cons a w => cases a with
    | inp => rw [hw'] at hn'; exact absurd rfl hn'
    | out => rfl

theorem steady_attached (hf : Fitting sh c) (hs : c.shape sh = .ok s) (hπ : Function.Injective π) (hq : (qubitsOf c).map π = qs)
    {P : List Int} (hP : ∀ q ∈ freshQubits s qs, q ∉ P) :
    Steady P ((renamed π (timeSorted c)).map fun p => (actOf sh ten p.2, freshQubits (shapeD sh p.2.op) p.2.qubits)) := by
  refine steady_of_wired (fun q => ?_) fun q hh => ?_
  · by_cases h : ∃ q', q = π q'
    · obtain ⟨q', rfl⟩ := h
      rw [renamed_word hπ]
      exact (wired_sorted hf hs).chain q'
    · push Not at h
      rw [renamed_word_out _ h]
      exact List.isChain_nil
  · by_cases h : ∃ q', q = π q'
    · obtain ⟨q', rfl⟩ := h
      rw [renamed_word hπ] at hh
      refine hP _ (mem_freshQubits.2 ?_)
      rw [outer_ports hf hs hπ hq, ends_ports, hh]
    · push Not at h
      rw [renamed_word_out _ h] at hh
      cases hh

/-- A circuit used as an operation on states acts as what its operations unfold to. -/
theorem unfolds_circ (hf : Fitting sh c) (hs : c.shape sh = .ok s) (hπ : Function.Injective π) (hq : (qubitsOf c).map π = qs)
    {S : α → List Int → List (Act R)}
    (hS : ∀ p ∈ c, ∀ qs', qs'.Nodup → qs'.length = p.2.qubits.length →
      Unfolds ⟨ten p.2.op, inQubits (shapeD sh p.2.op) qs', outQubits (shapeD sh p.2.op) qs'⟩ (freshQubits (shapeD sh p.2.op) qs') (S p.2.op qs')) :
    Unfolds ⟨circMat sh ten c, inQubits s qs, outQubits s qs⟩ (freshQubits s qs)
      ((renamed π (timeSorted c)).flatMap fun p => S p.2.op p.2.qubits) := by
  intro P Ψ hΨ hP u hu
  rw [outer_ins hf hs hπ hq, outer_outs hf hs hπ hq,
    apply_sequence (S := (renamed π (timeSorted c)).map fun p => actOf sh ten p.2) ((nodup_of_sorted (circIns_sorted sh c)).map hπ)
      (fun x w _ _ => circMat_attached hf hs hπ ten x w) (fun p hp q hi hn => ?_) hu]
  · refine unfold_chain (f := fun p : Nm × OpRec α => actOf sh ten p.2) (B := fun p => freshQubits (shapeD sh p.2.op) p.2.qubits) (fun p hp => ?_) hΨ
      (steady_attached hf hs hπ hq hP) hu
    obtain ⟨p', hp', rfl⟩ := List.mem_map.1 hp
    have hm := (timeSorted_perm c).mem_iff.1 hp'
    exact hS p' hm _ ((hf p' hm).choose_spec.2.2.map hπ) (by simp)
  · have h := hP q (fresh_of_ins hf hs hπ hq hp hi hn)
    exact fun a b hab => hΨ a b fun e he => hab e fun hc => h (by
      rw [List.mem_singleton] at hc; exact hc ▸ he)

/-- A circuit used as an operation on density matrices acts as what its operations unfold to. -/
theorem unfolds_circDens (hf : Fitting sh c) (hs : c.shape sh = .ok s) (hπ : Function.Injective π) (hq : (qubitsOf c).map π = qs)
    {S : α → List Int → List (Act R)}
    (hS : ∀ p ∈ c, ∀ qs', qs'.Nodup → qs'.length = p.2.qubits.length →
      Unfolds (Act.twice ⟨ten p.2.op, inQubits (shapeD sh p.2.op) qs', outQubits (shapeD sh p.2.op) qs'⟩)
        (twice (freshQubits (shapeD sh p.2.op) qs')) ((S p.2.op qs').map Act.twice)) :
    Unfolds (Act.twice ⟨circDens sh ten c, inQubits s qs, outQubits s qs⟩) (twice (freshQubits s qs))
      (((renamed π (timeSorted c)).flatMap fun p => S p.2.op p.2.qubits).map Act.twice) := by
  intro P Ψ hΨ hP u hu
  rw [outer_ins hf hs hπ hq, outer_outs hf hs hπ hq,
    apply_sequence (S := ((renamed π (timeSorted c)).map fun p => actOf sh ten p.2).map Act.twice)
      (twice_nodup ((nodup_of_sorted (circIns_sorted sh c)).map hπ)) (fun x w _ _ => ?_) (fun p hp q hi hn => ?_) hu]
  · rw [List.map_map, List.map_flatMap]
    refine unfold_chain (f := Act.twice ∘ fun p : Nm × OpRec α => actOf sh ten p.2)
      (B := fun p => twice (freshQubits (shapeD sh p.2.op) p.2.qubits)) (fun p hp => ?_) hΨ ?_ hu
    · obtain ⟨p', hp', rfl⟩ := List.mem_map.1 hp
      have hm := (timeSorted_perm c).mem_iff.1 hp'
      exact hS p' hm _ ((hf p' hm).choose_spec.2.2.map hπ) (by simp)
    · have := steady_twice (P := P.map (· / 2)) (P2 := P) (fun k hk => List.mem_map.2 ⟨k, hk, rfl⟩)
        (steady_attached (ten := ten) hf hs hπ hq (P := P.map (· / 2)) fun q hq hc => by
          obtain ⟨k, hk, rfl⟩ := List.mem_map.1 hc
          exact hP k (mem_twice.2 hq) hk)
      rw [List.map_map] at this
      exact this
  · rw [twice_ten]
    refine (circDens_attached hf hs hπ ten _ _ _ _).trans ?_
    have := evolve_twice ((renamed π (timeSorted c)).map fun p => actOf sh ten p.2)
      (basisDens ((circIns sh c).map π) (fun q => x (2 * q)) fun q => x (2 * q + 1))
    rw [← basisState_twice, join_split] at this
    show _ = evolve _ (basisState (twice ((circIns sh c).map π)) x) w
    rw [this]; rfl
  · obtain ⟨p', hp', rfl⟩ := List.mem_map.1 hp
    have hi : q / 2 ∈ p'.ins := mem_twice.1 hi
    have hn : q / 2 ∉ (circIns sh c).map π := fun h => hn (mem_twice.2 h)
    have h := hP q (mem_twice.2 (fresh_of_ins hf hs hπ hq hp' hi hn))
    exact fun a b hab => hΨ a b fun e he => hab e fun hc => h (by
      rw [List.mem_singleton] at hc; exact hc ▸ he)

end Attached

end Circ

end Verif
