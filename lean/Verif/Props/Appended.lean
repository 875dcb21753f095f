import Verif.Props.Nest
/-!
# C63: circuits written down one operation after the other

`append` without a time step puts the operation behind all others (circuit.py:817-819).  What such a circuit means can be
said without times: the operations act in the order in which they were appended.
-/

namespace Verif

namespace Circ

variable {α : Type} {sh : ShapeFn α}

/-- The circuit with the operations `l` at the times `k`, `k + 1`, ... -/
def seqFrom (k : Int) : List (α × List Int) → Circ α
  | [] => []
  | (op, qs) :: l => (autoName k qs, ⟨op, k, qs⟩) :: seqFrom (k + 1) l

/-- What `append` checks. -/
def Appendable (sh : ShapeFn α) (x : α × List Int) : Prop := ∃ s, sh x.1 = .ok s ∧ s.length = x.2.length ∧ x.2.Nodup

theorem seqFrom_append (l l' : List (α × List Int)) : ∀ k, seqFrom k (l ++ l') = seqFrom k l ++ seqFrom (k + l.length) l' := by
  induction l with
  | nil => intro k; simp [seqFrom]
  | cons x l ih =>
    intro k
    simp only [List.cons_append, seqFrom, ih, List.length_cons, Nat.cast_add, Nat.cast_one]
    rw [show k + 1 + (l.length : Int) = k + (l.length + 1) by ring]

theorem mem_seqFrom {l : List (α × List Int)} : ∀ {k : Int} {p : Nm × OpRec α}, p ∈ seqFrom k l →
    (p.2.op, p.2.qubits) ∈ l ∧ k ≤ p.2.time ∧ p.2.time < k + l.length ∧ p.1 = autoName p.2.time p.2.qubits := by
  induction l with
  | nil => intro k p h; simp [seqFrom] at h
  | cons x l ih =>
    intro k p h
    simp only [seqFrom, List.mem_cons] at h
    rcases h with rfl | h
    · exact ⟨by simp, by simp, by simp, rfl⟩
    · obtain ⟨h1, h2, h3, h4⟩ := ih h
      refine ⟨List.mem_cons_of_mem _ h1, by omega, ?_, h4⟩
      simp only [List.length_cons, Nat.cast_add, Nat.cast_one]
      omega

theorem seqFrom_times (l : List (α × List Int)) : ∀ k, (seqFrom k l).Pairwise fun p p' => p.2.time < p'.2.time := by
  induction l with
  | nil => intro k; exact List.Pairwise.nil
  | cons x l ih =>
    intro k
    refine List.Pairwise.cons (fun p hp => ?_) (ih (k + 1))
    have := (mem_seqFrom hp).2.1
    show k < p.2.time
    omega

theorem seqFrom_maxTime (l : List (α × List Int)) : (seqFrom 0 l).maxTime = l.length - 1 := by
  have key : ∀ (l : List (α × List Int)) (k : Int), (seqFrom k l).foldl (fun m p => max m p.2.time) (k - 1) = k + l.length - 1 := by
    intro l
    induction l with
    | nil => intro k; simp [seqFrom]
    | cons x l ih =>
      intro k
      simp only [seqFrom, List.foldl_cons, List.length_cons, Nat.cast_add, Nat.cast_one]
      rw [show max (k - 1) k = k + 1 - 1 by omega, ih]
      ring
  cases l with
  | nil => rfl
  | cons x l =>
    show (seqFrom (0 + 1) l).foldl (fun m p => max m p.2.time) (0 + 1 - 1) = _
    rw [key]
    simp only [List.length_cons, Nat.cast_add, Nat.cast_one]
    ring

theorem seqFrom_keys (l : List (α × List Int)) (k : Int) : (seqFrom k l).keys.Nodup := by
  have h := seqFrom_times l k
  unfold Dict.keys List.Nodup
  rw [List.pairwise_map]
  refine h.imp_of_mem fun {p p'} hp hp' hlt hc => ?_
  rw [(mem_seqFrom hp).2.2.2, (mem_seqFrom hp').2.2.2] at hc
  have := autoName_time hc
  omega

/-- **C63**: appending operations that fit, without time steps and names, never raises and gives the circuit with these operations
at the times 0, 1, ..., none of them replacing another one; an operation that does not fit raises. -/
theorem c63_append (l : List (α × List Int)) : (∀ x ∈ l, Appendable sh x) → l.foldlM (fun c x => append sh c x.1 x.2) [] = .ok (seqFrom 0 l) := by
  have key : ∀ (l' l : List (α × List Int)), (∀ x ∈ l', Appendable sh x) →
      l'.foldlM (fun c x => append sh c x.1 x.2) (seqFrom 0 l) = .ok (seqFrom 0 (l ++ l')) := by
    intro l'
    induction l' with
    | nil => intro l _; simp; rfl
    | cons x l' ih =>
      intro l h
      obtain ⟨s, h1, h2, h3⟩ := h x (by simp)
      have hnew : autoName (1 + (seqFrom 0 l).maxTime) x.2 ∉ (seqFrom 0 l).keys := by
        intro hc
        obtain ⟨p, hp, hpn⟩ := List.mem_map.1 hc
        obtain ⟨_, _, h4, h5⟩ := mem_seqFrom hp
        rw [h5] at hpn
        have := autoName_time hpn
        rw [seqFrom_maxTime] at this
        omega
      have ha : append sh (seqFrom 0 l) x.1 x.2 = .ok (seqFrom 0 (l ++ [x])) := by
        unfold append
        rw [if_neg (by simpa using h3), h1]
        dsimp only
        rw [if_neg (by omega)]
        simp only [Option.getD_none]
        rw [Dict.set_eq_append hnew, seqFrom_append, seqFrom_maxTime]
        simp only [seqFrom]
        rw [show 1 + ((l.length : Int) - 1) = 0 + l.length by ring]
      rw [List.foldlM_cons, ha]
      show l'.foldlM _ (seqFrom 0 (l ++ [x])) = _
      rw [ih (l ++ [x]) fun y hy => h y (by simp [hy]), List.append_assoc]
      rfl
  intro h
  exact key l [] h

/-- **C63**: the other direction of `c63_append`. -/
theorem c63_append_fails {l : List (α × List Int)} {c : Circ α} (h : l.foldlM (fun c x => append sh c x.1 x.2) [] = .ok c) : ∀ x ∈ l, Appendable sh x := by
  have key : ∀ (l : List (α × List Int)) (c0 : Circ α), l.foldlM (fun c x => append sh c x.1 x.2) c0 = .ok c → ∀ x ∈ l, Appendable sh x := by
    intro l
    induction l with
    | nil => intro c0 _; simp
    | cons x l ih =>
      intro c0 h
      rw [List.foldlM_cons] at h
      cases ha : append sh c0 x.1 x.2 with
      | error e => rw [ha] at h; cases h
      | ok c1 =>
        rw [ha] at h
        intro y hy
        rcases List.mem_cons.1 hy with rfl | hy
        · unfold append at ha
          dsimp only at ha
          split at ha
          · cases ha
          · rename_i hq
            split at ha
            · cases ha
            · rename_i s hs
              split at ha
              · cases ha
              · rename_i hl
                exact ⟨s, hs, by omega, by simpa using hq⟩
        · exact ih c1 h y hy
  exact key l [] h

theorem seqFrom_sorted (l : List (α × List Int)) (k : Int) : timeSorted (seqFrom k l) = seqFrom k l := by
  unfold timeSorted
  exact List.Pairwise.insertionSort_eq ((seqFrom_times l k).imp fun h => h.le)

theorem seqFrom_word (l : List (α × List Int)) (q : Int) : ∀ k, wireWord sh q (seqFrom k l) = l.flatMap fun x => portsAt (shapeD sh x.1) x.2 q := by
  induction l with
  | nil => intro k; rfl
  | cons x l ih =>
    intro k
    have := ih (k + 1)
    unfold wireWord at this ⊢
    simp only [seqFrom, List.flatMap_cons, this]

theorem seqFrom_fits {l : List (α × List Int)} (h : ∀ x ∈ l, Appendable sh x) (k : Int) : Fitting sh (seqFrom k l) := by
  intro p hp
  obtain ⟨s, h1, h2, h3⟩ := h _ (mem_seqFrom hp).1
  exact ⟨s, h1, h2, h3⟩

theorem portsAt_nil {s : List (List Letter)} {qs : List Int} {q : Int} (h : q ∉ qs) : portsAt s qs q = [] := by
  unfold portsAt
  rw [List.filter_eq_nil_iff.2, List.flatMap_nil]
  intro p hp
  have := (List.of_mem_zip hp).1
  simp only [decide_eq_true_eq]
  rintro rfl
  exact h this

theorem wireWord_filter (c : Circ α) (q : Int) : wireWord sh q (c.filter fun p => q ∈ p.2.qubits) = wireWord sh q c := by
  induction c with
  | nil => rfl
  | cons p c ih =>
    unfold wireWord at ih ⊢
    rw [List.filter_cons]
    split
    · simp only [List.flatMap_cons, ih]
    · rename_i h
      simp only [decide_eq_true_eq] at h
      rw [ih, List.flatMap_cons, portsAt_nil h, List.nil_append]

/-- **C63**: such a circuit is valid exactly when on every qubit inputs and outputs alternate, in the order of appending. -/
theorem c63_valid {l : List (α × List Int)} (h : ∀ x ∈ l, Appendable sh x) :
    (∃ s, (seqFrom 0 l).shape sh = .ok s) ↔ ∀ q, Connectable (l.flatMap fun x => portsAt (shapeD sh x.1) x.2 q) := by
  have ht : ∀ q, Timeline (seqFrom 0 l) q ((seqFrom 0 l).filter fun p => q ∈ p.2.qubits) := fun q =>
    ⟨List.Perm.refl _, (seqFrom_times l 0).filter _⟩
  rw [c35_shape_iff (seqFrom_fits h 0)]
  refine forall_congr' fun q => ⟨?_, fun hc => ⟨_, ht q, by rw [wireWord_filter, seqFrom_word]; exact hc⟩⟩
  rintro ⟨l', ⟨h1, h2⟩, h3⟩
  have : l' = (seqFrom 0 l).filter fun p => q ∈ p.2.qubits :=
    List.Perm.eq_of_pairwise (fun a b _ _ h h' => absurd h (by have := h'; omega)) h2 (ht q).2 h1
  rw [this, wireWord_filter, seqFrom_word] at h3
  exact h3

/-- The qubits with outputs left, in order: the last end on the wire is an output. -/
def OutputsOf (sh : ShapeFn α) (l : List (α × List Int)) (outQ : List Int) : Prop :=
  outQ.Pairwise (· < ·) ∧ ∀ q, q ∈ outQ ↔ (l.flatMap fun x => portsAt (shapeD sh x.1) x.2 q).getLast? = some .out

/-- The qubits with inputs left, in order: the first end on the wire is an input. -/
def InputsOf (sh : ShapeFn α) (l : List (α × List Int)) (inQ : List Int) : Prop :=
  inQ.Pairwise (· < ·) ∧ ∀ q, q ∈ inQ ↔ (l.flatMap fun x => portsAt (shapeD sh x.1) x.2 q).head? = some .inp

theorem word_nil {c : Circ α} {q : Int} (h : q ∉ qubitsOf c) : wireWord sh q c = [] := by
  unfold wireWord
  rw [List.flatMap_eq_nil_iff]
  intro p hp
  exact portsAt_nil fun hq => h (mem_qubitsOf.2 ⟨p, hp, hq⟩)

theorem seqFrom_outs (l : List (α × List Int)) : OutputsOf sh l (circOuts sh (seqFrom 0 l)) := by
  refine ⟨(qubitsOf_sorted _).filter _, fun q => ?_⟩
  unfold circOuts
  rw [List.mem_filter, decide_eq_true_eq, seqFrom_sorted, seqFrom_word]
  refine ⟨fun h => h.2, fun h => ⟨?_, h⟩⟩
  by_contra hc
  rw [← seqFrom_word (sh := sh) l q 0, word_nil hc] at h
  simp at h

theorem seqFrom_ins (l : List (α × List Int)) : InputsOf sh l (circIns sh (seqFrom 0 l)) := by
  refine ⟨(qubitsOf_sorted _).filter _, fun q => ?_⟩
  unfold circIns
  rw [List.mem_filter, decide_eq_true_eq, seqFrom_sorted, seqFrom_word]
  refine ⟨fun h => h.2, fun h => ⟨?_, h⟩⟩
  by_contra hc
  rw [← seqFrom_word (sh := sh) l q 0, word_nil hc] at h
  simp at h

theorem OutputsOf.unique {l : List (α × List Int)} {a b : List Int} (h : OutputsOf sh l a) (h' : OutputsOf sh l b) : a = b :=
  List.Perm.eq_of_pairwise (fun x y _ _ h1 h2 => absurd h1 (by omega)) h.1 h'.1
    ((List.perm_ext_iff_of_nodup (h.1.imp fun h => h.ne) (h'.1.imp fun h => h.ne)).2 fun q => by rw [h.2, h'.2])

theorem InputsOf.unique {l : List (α × List Int)} {a b : List Int} (h : InputsOf sh l a) (h' : InputsOf sh l b) : a = b :=
  List.Perm.eq_of_pairwise (fun x y _ _ h1 h2 => absurd h1 (by omega)) h.1 h'.1
    ((List.perm_ext_iff_of_nodup (h.1.imp fun h => h.ne) (h'.1.imp fun h => h.ne)).2 fun q => by rw [h.2, h'.2])

end Circ

namespace Oper

open Circ

variable {R : Type} [CommSemiring R] [StarRing R] {ctr : TVal R → Except Err (Arr R)}

omit [CommSemiring R] [StarRing R] in
theorem seqFrom_acts {sh : ShapeFn (Oper R)} (ten : Oper R → List Nat → R) (l : List (Oper R × List Int)) :
    ∀ k, (seqFrom k l).map (fun p => actOf sh ten p.2) = l.map fun x => ⟨ten x.1, inQubits (shapeD sh x.1) x.2, outQubits (shapeD sh x.1) x.2⟩ := by
  induction l with
  | nil => intro k; rfl
  | cons x l ih =>
    intro k
    simp only [seqFrom, List.map_cons, ih]
    rfl

/-- **C63**: `tensor_pure` of a circuit built by appending `l` without time steps: the matrices act in the order of appending. -/
theorem c63_tensor (hctr : Evaluates ctr) {n : Nat} {l : List (Oper R × List Int)} (hb : ∀ x ∈ l, Built ctr n false x.1)
    (hf : ∀ x ∈ l, Appendable (shapes ctr n) x) (hv : ∀ q, Connectable (l.flatMap fun x => portsAt (shapeD (shapes ctr n) x.1) x.2 q)) {outQ inQ : List Int}
    (ho : OutputsOf (shapes ctr n) l outQ) (hi : InputsOf (shapes ctr n) l inQ) :
    ∃ c t, l.foldlM (fun c x => append (shapes ctr n) c x.1 x.2) [] = .ok c ∧ Built ctr (n + 1) false (.circ c) ∧
      (iface ctr (n + 1)).tensor (.circ c) = .ok t ∧
      ∀ u v : Int → Nat, Good u → Good v → t.tot (outQ.map u ++ inQ.map v) =
        evolve (l.map fun x => ⟨matrix ctr n x.1, inQubits (shapeD (shapes ctr n) x.1) x.2, outQubits (shapeD (shapes ctr n) x.1) x.2⟩)
          (basisState inQ v) u := by
  have hB : Built ctr (n + 1) false (.circ (seqFrom 0 l)) := by
    rw [Built]
    refine ⟨seqFrom_keys l 0, (c63_valid hf).2 hv, fun p hp => ?_, by simp⟩
    have := (mem_seqFrom hp).1
    obtain ⟨s, h1, h2, h3⟩ := hf _ this
    exact ⟨hb _ this, h3, s, h1, h2⟩
  obtain ⟨s, t, hm, -⟩ := means_built hctr _ _ _ hB
  have hs : Circ.shape (shapes ctr n) (seqFrom 0 l) = .ok s := hm.shape
  have hfit := seqFrom_fits hf 0
  rw [ho.unique (seqFrom_outs l), hi.unique (seqFrom_ins l)]
  refine ⟨_, t, c63_append l hf, hB, hm.tensor, fun u v hu hv' => ?_⟩
  rw [hm.entries _ (by rw [Circ.outs_length hfit hs, Circ.ins_length hfit hs]; exact bits_map hu hv')]
  have key := Circ.circMat_attached hfit hs Function.injective_id (matrix ctr n) v u
  simp only [List.map_id, renamed_id, seqFrom_sorted, seqFrom_acts] at key
  exact key

/-- **C63** for `tensor_density`. -/
theorem c63_density (hctr : Evaluates ctr) {G : TN.Glue} (hG : G.Sound) {n k K : Nat} {l : List (Oper R × List Int)}
    (hb : ∀ x ∈ l, DensBuilt ctr k n x.1) (hK : n + 1 + k ≤ K)
    (hf : ∀ x ∈ l, Appendable (shapes ctr n) x) (hv : ∀ q, Connectable (l.flatMap fun x => portsAt (shapeD (shapes ctr n) x.1) x.2 q)) {outQ inQ : List Int}
    (ho : OutputsOf (shapes ctr n) l outQ) (hi : InputsOf (shapes ctr n) l inQ) :
    ∃ c d, l.foldlM (fun c x => append (shapes ctr n) c x.1 x.2) [] = .ok c ∧ DensBuilt ctr k (n + 1) (.circ c) ∧
      density ctr G K (n + 1) (.circ c) = .ok d ∧
      ∀ u v u' v' : Int → Nat, Good u → Good v → Good u' → Good v' → d.tot (outQ.map u ++ inQ.map v ++ outQ.map u' ++ inQ.map v') =
        evolveDens (l.map fun x => ⟨densMatrix ctr n x.1, inQubits (shapeD (shapes ctr n) x.1) x.2, outQubits (shapeD (shapes ctr n) x.1) x.2⟩)
          (basisDens inQ v v') u u' := by
  have hB : DensBuilt ctr k (n + 1) (.circ (seqFrom 0 l)) := by
    rw [DensBuilt]
    refine ⟨seqFrom_keys l 0, (c63_valid hf).2 hv, fun p hp => ?_⟩
    have := (mem_seqFrom hp).1
    obtain ⟨s, h1, h2, h3⟩ := hf _ this
    exact ⟨hb _ this, h3, s, h1, h2⟩
  obtain ⟨s, d, hs, h2, -, h3⟩ := c47_operation hctr hG hB hK
  have hs : Circ.shape (shapes ctr n) (seqFrom 0 l) = .ok s := hs
  have hfit := seqFrom_fits hf 0
  rw [ho.unique (seqFrom_outs l), hi.unique (seqFrom_ins l)]
  refine ⟨_, d, c63_append l hf, hB, h2, fun u v u' v' hu hv1 hu' hv1' => ?_⟩
  rw [h3 _ ?_]
  · have key := Circ.circDens_attached hfit hs Function.injective_id (densMatrix ctr n) v v' u u'
    simp only [List.map_id, renamed_id, seqFrom_sorted, seqFrom_acts] at key
    exact key
  · have b1 := bits_map (l := circOuts (shapes ctr n) (seqFrom 0 l)) (l' := circIns (shapes ctr n) (seqFrom 0 l)) hu hv1
    have b2 := bits_map (l := circOuts (shapes ctr n) (seqFrom 0 l)) (l' := circIns (shapes ctr n) (seqFrom 0 l)) hu' hv1'
    rw [Circ.outs_length hfit hs, Circ.ins_length hfit hs, List.append_assoc, two_mul]
    exact b1.append b2

end Oper

end Verif
