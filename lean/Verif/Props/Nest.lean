import Verif.Lemmas.NestCirc
import Verif.Props.DensPure
/-!
# C51 Nesting does not matter: a circuit as an operation acts as its operations
-/

set_option linter.unusedSectionVars false

namespace Verif

variable {R : Type} [CommSemiring R] [StarRing R]

namespace Oper

variable {ctr : TVal R → Except Err (Arr R)}

/-- The circuits inside the operation, at every depth, are valid and their operations fit. -/
def AllValid (ctr : TVal R → Except Err (Arr R)) : Nat → Oper R → Prop
  | n + 1, .circ c => (∃ s, Circ.shape (iface ctr n).shape c = .ok s) ∧
      ∀ p ∈ c, AllValid ctr n p.2.op ∧ p.2.qubits.Nodup ∧ ∃ s, (iface ctr n).shape p.2.op = .ok s ∧ s.length = p.2.qubits.length
  | _, _ => True

theorem allValid_built : ∀ (n : Nat) {b : Bool} {op : Oper R}, Built ctr n b op → AllValid ctr n op
  | 0, _, op, h => by cases op <;> simp [AllValid]
  | n + 1, _, .circ c, h => by
    rw [Built] at h; rw [AllValid]
    exact ⟨h.2.1, fun p hp => ⟨allValid_built n (h.2.2.1 p hp).1, (h.2.2.1 p hp).2⟩⟩
  | n + 1, _, .imm _ _, _ => trivial
  | n + 1, _, .pure _ _, _ => trivial
  | n + 1, _, .ctrl _ _ _ _, _ => trivial
  | n + 1, _, .cctrl _ _ _, _ => trivial
  | n + 1, _, .sup _ _, _ => trivial

theorem allValid_dens {k : Nat} : ∀ (n : Nat) {op : Oper R}, DensBuilt ctr k n op → AllValid ctr n op
  | 0, op, h => by cases op <;> simp [AllValid]
  | n + 1, .circ c, h => by
    rw [DensBuilt] at h; rw [AllValid]
    exact ⟨h.2.1, fun p hp => ⟨allValid_dens n (h.2.2 p hp).1, (h.2.2 p hp).2⟩⟩
  | n + 1, .imm _ _, _ => trivial
  | n + 1, .pure _ _, _ => trivial
  | n + 1, .ctrl _ _ _ _, _ => trivial
  | n + 1, .cctrl _ _ _, _ => trivial
  | n + 1, .sup _ _, _ => trivial

/-- The shapes of the operations at every depth. -/
abbrev shapes (ctr : TVal R → Except Err (Arr R)) : Nat → Circ.ShapeFn (Oper R) := fun k => (iface ctr k).shape

theorem single_unfolds (p : Act R) (B : List Int) : Unfolds p B [p] := fun _ _ _ _ _ _ => rfl

theorem leaves_circ {sh : Nat → Circ.ShapeFn (Oper R)} {ent : Nat → Oper R → List Nat → R} {n : Nat} {c : Circ (Oper R)} {π : Int → Int} :
    leaves sh ent (n + 1) (.circ c) ((qubitsOf c).map π) =
      (Circ.renamed π (timeSorted c)).flatMap fun p => leaves sh ent n p.2.op p.2.qubits := by
  rw [leaves, Circ.renamed, List.flatMap_map]
  refine List.flatMap_congr fun p hp => ?_
  congr 1
  refine List.map_congr_left fun q hq => attach_eq ?_
  exact Circ.mem_qubitsOf.2 ⟨p, (Circ.timeSorted_perm c).mem_iff.1 hp, hq⟩

theorem fitting_of {n : Nat} {c : Circ (Oper R)} (h : ∀ p ∈ c, AllValid ctr n p.2.op ∧ p.2.qubits.Nodup ∧
    ∃ s, (iface ctr n).shape p.2.op = .ok s ∧ s.length = p.2.qubits.length) : Fitting (shapes ctr n) c := fun p hp => by
  obtain ⟨-, h2, s, h3, h4⟩ := h p hp
  exact ⟨s, h3, h4, h2⟩

/-- An operation acts on states as the sequence of its gates. -/
theorem unfolds_state : ∀ (n : Nat) (op : Oper R), AllValid ctr n op → ∀ {s : List (List Letter)}, (iface ctr n).shape op = .ok s →
    ∀ {qs : List Int}, qs.Nodup → qs.length = s.length →
    Unfolds ⟨matrix ctr n op, inQubits s qs, outQubits s qs⟩ (freshQubits s qs) (leaves (shapes ctr) (matrix ctr) n op qs)
  | n + 1, .circ c, h, s, hs, qs, hn, hl => by
    rw [AllValid] at h
    have hf := fitting_of h.2
    have hs : Circ.shape (shapes ctr n) c = .ok s := hs
    obtain ⟨π, hπ, hq⟩ := exists_renaming (Circ.nodup_of_sorted (Circ.qubitsOf_sorted c)) hn (by rw [hl, Circ.shape_length hf hs])
    have key := Circ.unfolds_circ (ten := matrix ctr n) hf hs hπ hq (S := leaves (shapes ctr) (matrix ctr) n) fun p hp qs' hn' hl' => by
      obtain ⟨h1, h2, s', h3, h4⟩ := h.2 p hp
      have hsd : shapeD (shapes ctr n) p.2.op = s' := by
        show shapeD (iface ctr n).shape p.2.op = s'
        simp [shapeD, h3]
      rw [hsd]
      exact unfolds_state n p.2.op h1 h3 hn' (by rw [hl', h4])
    rw [← leaves_circ, hq] at key
    exact key
  | 0, op, _, s, hs, qs, _, _ => by cases op <;> cases hs
  | n + 1, .imm _ _, _, s, hs, qs, _, _ => by cases hs; exact single_unfolds _ _
  | n + 1, .pure _ _, _, s, hs, qs, _, _ => by cases hs; exact single_unfolds _ _
  | n + 1, .ctrl _ _ _ _, _, s, hs, qs, _, _ => by cases hs; exact single_unfolds _ _
  | n + 1, .cctrl _ _ _, _, s, hs, qs, _, _ => by cases hs; exact single_unfolds _ _
  | n + 1, .sup _ _, _, s, hs, qs, _, _ => by cases hs; exact single_unfolds _ _

/-- An operation acts on density matrices as the sequence of its gates. -/
theorem unfolds_dens : ∀ (n : Nat) (op : Oper R), AllValid ctr n op → ∀ {s : List (List Letter)}, (iface ctr n).shape op = .ok s →
    ∀ {qs : List Int}, qs.Nodup → qs.length = s.length →
    Unfolds (Act.twice ⟨densMatrix ctr n op, inQubits s qs, outQubits s qs⟩) (twice (freshQubits s qs))
      ((leaves (shapes ctr) (densMatrix ctr) n op qs).map Act.twice)
  | n + 1, .circ c, h, s, hs, qs, hn, hl => by
    rw [AllValid] at h
    have hf := fitting_of h.2
    have hs : Circ.shape (shapes ctr n) c = .ok s := hs
    obtain ⟨π, hπ, hq⟩ := exists_renaming (Circ.nodup_of_sorted (Circ.qubitsOf_sorted c)) hn (by rw [hl, Circ.shape_length hf hs])
    have key := Circ.unfolds_circDens (ten := densMatrix ctr n) hf hs hπ hq (S := leaves (shapes ctr) (densMatrix ctr) n) fun p hp qs' hn' hl' => by
      obtain ⟨h1, h2, s', h3, h4⟩ := h.2 p hp
      have hsd : shapeD (shapes ctr n) p.2.op = s' := by
        show shapeD (iface ctr n).shape p.2.op = s'
        simp [shapeD, h3]
      rw [hsd]
      exact unfolds_dens n p.2.op h1 h3 hn' (by rw [hl', h4])
    rw [← leaves_circ, hq] at key
    exact key
  | 0, op, _, s, hs, qs, _, _ => by cases op <;> cases hs
  | n + 1, .imm _ _, _, s, hs, qs, _, _ => by cases hs; exact single_unfolds _ _
  | n + 1, .pure _ _, _, s, hs, qs, _, _ => by cases hs; exact single_unfolds _ _
  | n + 1, .ctrl _ _ _ _, _, s, hs, qs, _, _ => by cases hs; exact single_unfolds _ _
  | n + 1, .cctrl _ _ _, _, s, hs, qs, _, _ => by cases hs; exact single_unfolds _ _
  | n + 1, .sup _ _, _, s, hs, qs, _, _ => by cases hs; exact single_unfolds _ _

/-! ## Entries -/

theorem map_attach_self {qs l : List Int} (h : ∀ q ∈ l, q ∈ qs) : l.map (attach qs qs) = l := by
  conv_rhs => rw [← List.map_id l]
  refine List.map_congr_left fun q hq => ?_
  have := attach_eq (π := id) (h q hq)
  rwa [List.map_id] at this

theorem leaves_self {sh : Nat → Circ.ShapeFn (Oper R)} {ent : Nat → Oper R → List Nat → R} {n : Nat} (c : Circ (Oper R)) :
    leaves sh ent (n + 1) (.circ c) (qubitsOf c) = (timeSorted c).flatMap fun p => leaves sh ent n p.2.op p.2.qubits := by
  rw [leaves]
  refine List.flatMap_congr fun p hp => ?_
  rw [map_attach_self fun q hq => Circ.mem_qubitsOf.2 ⟨p, (Circ.timeSorted_perm c).mem_iff.1 hp, hq⟩]

theorem renamed_id {α : Type} (l : Circ α) : Circ.renamed id l = l := by
  unfold Circ.renamed
  simp

/-- **C51.**  The matrix of a valid circuit is the effect, on basis states, of all gates it contains at any depth, one
after the other, on the qubits to which they are attached: nested circuits may be taken apart. -/
theorem c51_matrix {n : Nat} {c : Circ (Oper R)} (h : AllValid ctr (n + 1) (.circ c)) {u v : Int → Nat} (hu : Good u) :
    matrix ctr (n + 1) (.circ c) ((circOuts (shapes ctr n) c).map u ++ (circIns (shapes ctr n) c).map v) =
      evolve (leaves (shapes ctr) (matrix ctr) (n + 1) (.circ c) (qubitsOf c)) (basisState (circIns (shapes ctr n) c) v) u := by
  rw [AllValid] at h
  obtain ⟨⟨s, hs⟩, h2⟩ := h
  have hf := fitting_of h2
  have hs : Circ.shape (shapes ctr n) c = .ok s := hs
  rw [leaves_self]
  have key := Circ.circMat_attached hf hs Function.injective_id (matrix ctr n) v u
  simp only [List.map_id, renamed_id] at key
  refine Eq.trans key ?_
  refine unfold_chain (f := fun p : Nm × OpRec (Oper R) => actOf (shapes ctr n) (matrix ctr n) p.2)
    (B := fun p => freshQubits (shapeD (shapes ctr n) p.2.op) p.2.qubits) (fun p hp => ?_) (basisState_dependsOn _ _)
    (Circ.steady_of_wired (Circ.wired_sorted hf hs).chain fun q hq hc => ?_) hu
  · obtain ⟨h1, h2, s', h3, h4⟩ := h2 p ((Circ.timeSorted_perm c).mem_iff.1 hp)
    have hsd : shapeD (shapes ctr n) p.2.op = s' := by
      show shapeD (iface ctr n).shape p.2.op = s'
      simp [shapeD, h3]
    show Unfolds ⟨_, inQubits (shapeD (shapes ctr n) p.2.op) _, outQubits (shapeD (shapes ctr n) p.2.op) _⟩ _ _
    rw [hsd]
    exact unfolds_state n p.2.op h1 h3 h2 h4.symm
  · rw [Circ.mem_circIns.1 hc] at hq
    cases hq

/-- **C51** for density matrices. -/
theorem c51_density {n : Nat} {c : Circ (Oper R)} (h : AllValid ctr (n + 1) (.circ c)) {u v u' v' : Int → Nat} (hu : Good u)
    (hu' : Good u') : densMatrix ctr (n + 1) (.circ c) ((circOuts (shapes ctr n) c).map u ++ (circIns (shapes ctr n) c).map v ++
        (circOuts (shapes ctr n) c).map u' ++ (circIns (shapes ctr n) c).map v') =
      evolveDens (leaves (shapes ctr) (densMatrix ctr) (n + 1) (.circ c) (qubitsOf c)) (basisDens (circIns (shapes ctr n) c) v v') u u' := by
  rw [AllValid] at h
  obtain ⟨⟨s, hs⟩, h2⟩ := h
  have hf := fitting_of h2
  have hs : Circ.shape (shapes ctr n) c = .ok s := hs
  rw [leaves_self]
  have key := Circ.circDens_attached hf hs Function.injective_id (densMatrix ctr n) v v' u u'
  simp only [List.map_id, renamed_id] at key
  refine Eq.trans key ?_
  rw [← splitDens_join (evolveDens _ _), ← splitDens_join (evolveDens _ _), ← evolve_twice, ← evolve_twice, List.map_map, List.map_flatMap,
    ← basisState_twice]
  refine unfold_chain (f := Act.twice ∘ fun p : Nm × OpRec (Oper R) => actOf (shapes ctr n) (densMatrix ctr n) p.2)
    (B := fun p => twice (freshQubits (shapeD (shapes ctr n) p.2.op) p.2.qubits)) (fun p hp => ?_) (basisState_dependsOn _ _) ?_
    (joinAsg_good hu hu')
  · obtain ⟨h1, h2, s', h3, h4⟩ := h2 p ((Circ.timeSorted_perm c).mem_iff.1 hp)
    have hsd : shapeD (shapes ctr n) p.2.op = s' := by
      show shapeD (iface ctr n).shape p.2.op = s'
      simp [shapeD, h3]
    show Unfolds (Act.twice ⟨_, inQubits (shapeD (shapes ctr n) p.2.op) _, outQubits (shapeD (shapes ctr n) p.2.op) _⟩) _ _
    rw [hsd]
    exact unfolds_dens n p.2.op h1 h3 h2 h4.symm
  · have := steady_twice (P := circIns (shapes ctr n) c) (P2 := twice (circIns (shapes ctr n) c)) (fun k hk => mem_twice.1 hk)
      (Circ.steady_of_wired (ten := densMatrix ctr n) (Circ.wired_sorted hf hs).chain fun q hq hc => by
        rw [Circ.mem_circIns.1 hc] at hq
        cases hq)
    rw [List.map_map] at this
    exact this

theorem bits_map {l l' : List Int} {u v : Int → Nat} (hu : Good u) (hv : Good v) : Bits (l.map u ++ l'.map v) (l.length + l'.length) :=
  ⟨by simp, fun b hb => by
    rcases List.mem_append.1 hb with hb | hb <;> obtain ⟨q, -, rfl⟩ := List.mem_map.1 hb
    · exact hu q
    · exact hv q⟩

/-- **C51**, from the code to the gates: `tensor_pure` of a circuit has the entries obtained by applying, one after the
other, all gates that it contains at any depth. -/
theorem c51_tensor_pure (hctr : Evaluates ctr) {n : Nat} {b : Bool} {c : Circ (Oper R)} (h : Built ctr (n + 1) b (.circ c)) :
    ∃ t, (iface ctr (n + 1)).tensor (.circ c) = .ok t ∧
      ∀ u v : Int → Nat, Good u → Good v → t.tot ((circOuts (shapes ctr n) c).map u ++ (circIns (shapes ctr n) c).map v) =
        evolve (leaves (shapes ctr) (matrix ctr) (n + 1) (.circ c) (qubitsOf c)) (basisState (circIns (shapes ctr n) c) v) u := by
  have hv := allValid_built (n + 1) h
  obtain ⟨s, t, hm, -⟩ := means_built hctr _ _ _ h
  have hs : Circ.shape (shapes ctr n) c = .ok s := hm.shape
  have hf : Fitting (shapes ctr n) c := by rw [AllValid] at hv; exact fitting_of hv.2
  refine ⟨t, hm.tensor, fun u v hu hv' => ?_⟩
  rw [hm.entries _ (by rw [Circ.outs_length hf hs, Circ.ins_length hf hs]; exact bits_map hu hv'), c51_matrix hv hu]

/-- **C51** for `tensor_density`. -/
theorem c51_tensor_density (hctr : Evaluates ctr) {G : TN.Glue} (hG : G.Sound) {n k K : Nat} {c : Circ (Oper R)}
    (h : DensBuilt ctr k (n + 1) (.circ c)) (hK : n + 1 + k ≤ K) : ∃ d, density ctr G K (n + 1) (.circ c) = .ok d ∧
      ∀ u v u' v' : Int → Nat, Good u → Good v → Good u' → Good v' →
        d.tot ((circOuts (shapes ctr n) c).map u ++ (circIns (shapes ctr n) c).map v ++
          (circOuts (shapes ctr n) c).map u' ++ (circIns (shapes ctr n) c).map v') =
        evolveDens (leaves (shapes ctr) (densMatrix ctr) (n + 1) (.circ c) (qubitsOf c)) (basisDens (circIns (shapes ctr n) c) v v') u u' := by
  have hv := allValid_dens (n + 1) h
  obtain ⟨s, d, hs, h2, -, h3⟩ := c47_operation hctr hG h hK
  have hs : Circ.shape (shapes ctr n) c = .ok s := hs
  have hf : Fitting (shapes ctr n) c := by rw [AllValid] at hv; exact fitting_of hv.2
  refine ⟨d, h2, fun u v u' v' hu hv1 hu' hv1' => ?_⟩
  rw [h3 _ ?_, c51_density hv hu hu']
  have b1 := bits_map (l := circOuts (shapes ctr n) c) (l' := circIns (shapes ctr n) c) hu hv1
  have b2 := bits_map (l := circOuts (shapes ctr n) c) (l' := circIns (shapes ctr n) c) hu' hv1'
  rw [Circ.outs_length hf hs, Circ.ins_length hf hs, List.append_assoc, two_mul]
  exact b1.append b2

/-! ### Examples -/

/-- The hypotheses of `c51_tensor_density` (and so those of `c51_density`) are met by `exNoisy`, whose nested circuit on
the qubits 3 and 5 acts on the qubits 1 and 2. -/
example : ∃ c d, exNoisy = .circ c ∧ density evalAll stdGlue 3 3 exNoisy = .ok d ∧
    (leaves (shapes evalAll) (densMatrix evalAll) 3 exNoisy (qubitsOf c)).map (fun p => (p.ins, p.outs)) =
      [([1], [1]), ([0, 1, 2], [0, 1, 2]), ([1], [1]), ([1], [1]), ([2, 1], [2, 1])] := by
  obtain ⟨d, h, -⟩ := c51_tensor_density evalAll_evaluates stdGlue_sound exNoisy_dens (le_refl 3)
  exact ⟨_, d, rfl, h, by decide⟩

/-- The hypotheses of `c51_tensor_pure` (and so those of `c51_matrix`) are met by `exTop`. -/
example : ∃ t, (iface (R := GaussianInt) evalAll 3).tensor exTop = .ok t := by
  obtain ⟨t, h, -⟩ := c51_tensor_pure evalAll_evaluates exTop_built
  exact ⟨t, h⟩

end Oper

end Verif
