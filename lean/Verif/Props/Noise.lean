import Verif.Lemmas.Noise
/-!
# C52 Adding noise to a circuit
-/

set_option linter.unusedSectionVars false

namespace Verif

namespace Oper

variable {R : Type} [CommSemiring R] [StarRing R] {ctr : TVal R → Except Err (Arr R)}

theorem chain_member {sh : Circ.ShapeFn (Oper R)} {l : Circ (Oper R)} {q : Int} (h : Connectable (wireWord sh q l)) {p : Nm × OpRec (Oper R)}
    (hp : p ∈ l) : Connectable (portsAt (shapeD sh p.2.op) p.2.qubits q) := by
  obtain ⟨a, b, rfl⟩ := List.append_of_mem hp
  unfold wireWord Connectable at h
  rw [List.flatMap_append, List.flatMap_cons] at h
  exact (List.isChain_append.1 (List.isChain_append.1 h).2.1).1

/-- The noisy version of an entry of the dictionary of operations. -/
def noisyEntry (sh : Circ.ShapeFn (Oper R)) (noise : Oper R) (p : Nm × OpRec (Oper R)) : Nm × OpRec (Oper R) :=
  (p.1, ⟨.circ (match noisyOp sh noise p.2.op with | .ok d => d | .error _ => []), p.2.time, p.2.qubits⟩)

theorem addNoiseLoop_eq {sh sh' : Circ.ShapeFn (Oper R)} {noise : Oper R} : ∀ (l acc : Circ (Oper R)), (Dict.keys (acc ++ l)).Nodup →
    (∀ p ∈ l, ∃ d s, noisyOp sh noise p.2.op = .ok d ∧ sh' (.circ d) = .ok s ∧ p.2.qubits.Nodup ∧ p.2.qubits.length = s.length) →
    addNoiseLoop sh sh' noise l acc = .ok (acc ++ l.map (noisyEntry sh noise))
  | [], acc, _, _ => by simp [addNoiseLoop]
  | (k, r) :: l, acc, hk, h => by
    obtain ⟨d, s, h1, h2, h3, h4⟩ := h (k, r) (by simp)
    have hna : k ∉ Dict.keys acc := by
      rw [Dict.keys_append] at hk
      intro hm
      exact (List.nodup_append.1 hk).2.2 k hm k (by simp [Dict.keys]) rfl
    have ha : Circ.append sh' acc (.circ d) r.qubits (some r.time) (some k) = .ok (acc ++ [noisyEntry sh noise (k, r)]) := by
      unfold Circ.append
      have h3 : r.qubits.Nodup := h3
      have h4 : r.qubits.length = s.length := h4
      have h1 : noisyOp sh noise r.op = .ok d := h1
      simp only [h3, not_true_eq_false, if_false, h2, h4, ne_eq, Option.getD_some]
      rw [Dict.set_eq_append hna]
      unfold noisyEntry
      rw [h1]
    rw [addNoiseLoop, (show noisyOp sh noise r.op = .ok d from h1)]
    dsimp only
    rw [ha]
    dsimp only
    rw [addNoiseLoop_eq l _ ?_ fun p hp => h p (by simp [hp])]
    · simp
    · have : Dict.keys (acc ++ [noisyEntry sh noise (k, r)] ++ l) = Dict.keys (acc ++ (k, r) :: l) := by
        simp [Dict.keys, noisyEntry]
      rw [this]; exact hk

/-- **C52.**  Adding a one-qubit channel to a valid circuit (whose nested circuits name their qubits 0, 1, …) keeps names,
times, qubits, inputs and outputs, and the density matrix of the result is that of the operations one after the other, each
followed by the channel on each of its outputs. -/
theorem c52_add_noise_partial {k n : Nat} {noise : Oper R} {c : Circ (Oper R)} {l : List Letter} (hd : DensBuilt ctr k (n + 1) (.circ c))
    (hN : ∀ p ∈ c, Named p.2.op) (hnd : DensBuilt ctr k n noise) (hns : (iface ctr n).shape noise = .ok [l])
    (hnl : l.flatMap Letter.ports = [.inp, .out]) :
    ∃ c', addNoise ctr n noise c = .ok c' ∧ c'.map (fun p => (p.1, p.2.time, p.2.qubits)) = c.map (fun p => (p.1, p.2.time, p.2.qubits)) ∧
      DensBuilt ctr k (n + 2) (.circ c') ∧ circOuts (shapes ctr (n + 1)) c' = circOuts (shapes ctr n) c ∧
      circIns (shapes ctr (n + 1)) c' = circIns (shapes ctr n) c ∧
      ∀ u v u' v' : Int → Nat, Good u → Good u' →
        densMatrix ctr (n + 2) (.circ c') ((circOuts (shapes ctr n) c).map u ++ (circIns (shapes ctr n) c).map v ++
          (circOuts (shapes ctr n) c).map u' ++ (circIns (shapes ctr n) c).map v') =
        evolveDens (noisySeq (densMatrix ctr n noise) ((timeSorted c).map fun p => actOf (shapes ctr n) (densMatrix ctr n) p.2))
          (basisDens (circIns (shapes ctr n) c) v v') u u' := by
  rw [DensBuilt] at hd
  obtain ⟨hk, ⟨s, hs⟩, hops⟩ := hd
  have hs : Circ.shape (shapes ctr n) c = .ok s := hs
  have hf : Fitting (shapes ctr n) c := fun p hp => by
    obtain ⟨-, h2, s, h4, h5⟩ := hops p hp
    exact ⟨s, h4, h5, h2⟩
  have hwired := (Circ.wired_sorted hf hs).chain
  have hop : ∀ p ∈ c, ∃ d s s', noisyOp (shapes ctr n) noise p.2.op = .ok d ∧ DensBuilt ctr k (n + 1) (.circ d) ∧
      (iface ctr (n + 1)).shape (.circ d) = .ok s' ∧ s'.length = p.2.qubits.length ∧ shapeD (shapes ctr n) p.2.op = s ∧
      (∀ q, Like (portsAt s p.2.qubits q) (portsAt s' p.2.qubits q)) ∧
        Unfolds (Act.twice ⟨densMatrix ctr (n + 1) (.circ d), inQubits s' p.2.qubits, outQubits s' p.2.qubits⟩) (twice (freshQubits s' p.2.qubits))
          ((noisySeq (densMatrix ctr n noise) [⟨densMatrix ctr n p.2.op, inQubits s p.2.qubits, outQubits s p.2.qubits⟩]).map Act.twice) := by
    intro p hp
    obtain ⟨h1, h2, sp, h3, h4⟩ := hops p hp
    have hsd : shapeD (shapes ctr n) p.2.op = sp := by
      show shapeD (iface ctr n).shape p.2.op = sp
      simp [shapeD, h3]
    obtain ⟨π, hπ, hq⟩ := exists_renaming (rangeQubits_nodup sp.length) h2 (by rw [rangeQubits_length, h4])
    have hc : ∀ q, Connectable (portsAt sp (rangeQubits 0 sp.length) q) := fun q => by
      have := chain_member (hwired (π q)) ((Circ.timeSorted_perm c).mem_iff.2 hp)
      rwa [hsd, ← hq, portsAt_map fun a b h => hπ h] at this
    obtain ⟨d, s', k1, k2, k3, k4, k5⟩ := noisy_spec h1 h3 hc (hN p hp) hnd hns hnl
    obtain ⟨k6, k7⟩ := k5 p.2.qubits h2 h4.symm
    exact ⟨d, sp, s', k1, k2, k3, by rw [k4, h4], hsd, k6, k7⟩
  have hnop : ∀ p ∈ c, ∃ s', (noisyEntry (shapes ctr n) noise p).2.op = .circ (match noisyOp (shapes ctr n) noise p.2.op with | .ok d => d | .error _ => []) ∧
      DensBuilt ctr k (n + 1) (noisyEntry (shapes ctr n) noise p).2.op ∧
      (iface ctr (n + 1)).shape (noisyEntry (shapes ctr n) noise p).2.op = .ok s' ∧ s'.length = p.2.qubits.length ∧
      (∀ q, Like (portsAt (shapeD (shapes ctr n) p.2.op) p.2.qubits q)
        (portsAt (shapeD (shapes ctr (n + 1)) (noisyEntry (shapes ctr n) noise p).2.op) p.2.qubits q)) ∧
        Unfolds (Act.twice (actOf (shapes ctr (n + 1)) (densMatrix ctr (n + 1)) (noisyEntry (shapes ctr n) noise p).2))
          (twice (freshQubits (shapeD (shapes ctr (n + 1)) (noisyEntry (shapes ctr n) noise p).2.op) p.2.qubits))
          ((noisySeq (densMatrix ctr n noise) [actOf (shapes ctr n) (densMatrix ctr n) p.2]).map Act.twice) := by
    intro p hp
    obtain ⟨d, sp, s', k1, k2, k3, k4, k5, k6, k7⟩ := hop p hp
    have e : (noisyEntry (shapes ctr n) noise p).2 = ⟨.circ d, p.2.time, p.2.qubits⟩ := by
      unfold noisyEntry; rw [k1]
    have e' : shapeD (shapes ctr (n + 1)) (.circ d) = s' := by
      show shapeD (iface ctr (n + 1)).shape _ = s'
      simp [shapeD, k3]
    refine ⟨s', rfl, ?_, ?_, k4, ?_, ?_⟩
    · rw [e]; exact k2
    · rw [e]; exact k3
    · rw [e, k5]
      show ∀ q, Like _ (portsAt (shapeD (shapes ctr (n + 1)) (.circ d)) p.2.qubits q)
      rw [e']; exact k6
    · rw [e]
      show Unfolds (Act.twice ⟨_, inQubits (shapeD (shapes ctr (n + 1)) (.circ d)) p.2.qubits, outQubits (shapeD (shapes ctr (n + 1)) (.circ d)) p.2.qubits⟩)
        (twice (freshQubits (shapeD (shapes ctr (n + 1)) (.circ d)) p.2.qubits))
        ((noisySeq (densMatrix ctr n noise) [⟨_, inQubits (shapeD (shapes ctr n) p.2.op) p.2.qubits, outQubits (shapeD (shapes ctr n) p.2.op) p.2.qubits⟩]).map Act.twice)
      rw [e', k5]; exact k7
  have hloop := addNoiseLoop_eq (sh := shapes ctr n) (sh' := shapes ctr (n + 1)) (noise := noise) c [] hk fun p hp => by
    obtain ⟨d, sp, s', k1, -, k3, k4, -⟩ := hop p hp
    exact ⟨d, s', k1, k3, (hops p hp).2.1, k4.symm⟩
  have hf' : Fitting (shapes ctr (n + 1)) (c.map (noisyEntry (shapes ctr n) noise)) := fun p hp => by
    obtain ⟨p0, hp0, rfl⟩ := List.mem_map.1 hp
    obtain ⟨s', -, -, k3, k4, -⟩ := hnop p0 hp0
    exact ⟨s', k3, k4, (hops p0 hp0).2.1⟩
  have hsort : timeSorted (c.map (noisyEntry (shapes ctr n) noise)) = (timeSorted c).map (noisyEntry (shapes ctr n) noise) :=
    (List.map_insertionSort (fun p p' : Nm × OpRec (Oper R) => p.2.time ≤ p'.2.time) (fun p p' : Nm × OpRec (Oper R) => p.2.time ≤ p'.2.time)
      (noisyEntry (shapes ctr n) noise) c fun a _ b _ => Iff.rfl).symm
  have hlike : ∀ (t : Circ (Oper R)) (q : Int), (∀ p ∈ t, p ∈ c) →
      Like (wireWord (shapes ctr n) q t) (wireWord (shapes ctr (n + 1)) q (t.map (noisyEntry (shapes ctr n) noise))) := fun t q ht => by
    unfold wireWord
    rw [List.flatMap_map]
    refine Like.flatMap fun p hp => ?_
    obtain ⟨s', -, -, -, -, k5, -⟩ := hnop p (ht p hp)
    exact k5 q
  have hv : ∃ s', Circ.shape (shapes ctr (n + 1)) (c.map (noisyEntry (shapes ctr n) noise)) = .ok s' := by
    rw [Circ.c35_shape_iff hf']
    intro q
    obtain ⟨t, h1, h2⟩ := (Circ.c35_shape_iff hf).1 ⟨s, hs⟩ q
    refine ⟨t.map (noisyEntry (shapes ctr n) noise), ⟨?_, ?_⟩, (hlike t q fun p hp => ?_).chain h2⟩
    · rw [List.filter_map]
      exact h1.1.map _
    · rw [List.pairwise_map]
      exact h1.2
    · exact (List.mem_filter.1 (h1.1.mem_iff.1 hp)).1
  obtain ⟨s', hs'⟩ := hv
  have hwl : ∀ q, Like (wireWord (shapes ctr n) q (timeSorted c)) (wireWord (shapes ctr (n + 1)) q (timeSorted (c.map (noisyEntry (shapes ctr n) noise)))) :=
    fun q => by rw [hsort]; exact hlike _ q fun p hp => (Circ.timeSorted_perm c).mem_iff.1 hp
  have hqo : qubitsOf (c.map (noisyEntry (shapes ctr n) noise)) = qubitsOf c := by
    unfold qubitsOf; rw [List.flatMap_map]; rfl
  have houts : circOuts (shapes ctr (n + 1)) (c.map (noisyEntry (shapes ctr n) noise)) = circOuts (shapes ctr n) c := by
    unfold circOuts; rw [hqo]
    exact List.filter_congr fun q _ => by rw [(hwl q).last]
  have hins : circIns (shapes ctr (n + 1)) (c.map (noisyEntry (shapes ctr n) noise)) = circIns (shapes ctr n) c := by
    unfold circIns; rw [hqo]
    exact List.filter_congr fun q _ => by rw [(hwl q).head]
  refine ⟨c.map (noisyEntry (shapes ctr n) noise), hloop, by rw [List.map_map]; rfl, ?_, houts, hins, fun u v u' v' hu hu' => ?_⟩
  · rw [DensBuilt]
    refine ⟨?_, ⟨s', hs'⟩, fun p hp => ?_⟩
    · have : Dict.keys (c.map (noisyEntry (shapes ctr n) noise)) = Dict.keys c := by simp [Dict.keys, noisyEntry]
      rw [this]; exact hk
    · obtain ⟨p0, hp0, rfl⟩ := List.mem_map.1 hp
      obtain ⟨s2, -, k2, k3, k4, -⟩ := hnop p0 hp0
      exact ⟨k2, (hops p0 hp0).2.1, s2, k3, k4⟩
  · have key := Circ.circDens_attached hf' hs' Function.injective_id (densMatrix ctr (n + 1)) v v' u u'
    simp only [List.map_id, renamed_id] at key
    rw [houts, hins] at key
    refine Eq.trans key ?_
    rw [hsort, List.map_map, noisySeq, List.flatMap_map]
    rw [← splitDens_join (evolveDens _ _), ← splitDens_join (evolveDens _ _), ← evolve_twice, ← evolve_twice, List.map_map, List.map_flatMap,
      ← basisState_twice]
    refine unfold_chain (f := Act.twice ∘ (fun p : Nm × OpRec (Oper R) => actOf (shapes ctr (n + 1)) (densMatrix ctr (n + 1)) p.2) ∘ noisyEntry (shapes ctr n) noise)
      (B := fun p => twice (freshQubits (shapeD (shapes ctr (n + 1)) (noisyEntry (shapes ctr n) noise p).2.op) p.2.qubits)) (fun p hp => ?_)
      (basisState_dependsOn _ _) ?_ (joinAsg_good hu hu')
    · obtain ⟨s2, -, -, -, -, -, k6⟩ := hnop p ((Circ.timeSorted_perm c).mem_iff.1 hp)
      rw [noisySeq, List.flatMap_singleton] at k6
      exact k6
    · have := steady_twice (P := circIns (shapes ctr n) c) (P2 := twice (circIns (shapes ctr n) c)) (fun k hk => mem_twice.1 hk)
        (Circ.steady_of_wired (ten := densMatrix ctr (n + 1)) (Circ.wired_sorted hf' hs').chain fun q hq hc => by
          rw [← hins, Circ.mem_circIns] at hc
          rw [hc] at hq
          cases hq)
      rw [hsort, List.map_map, List.map_map] at this
      exact this

/-- **C52**, from the code to the channels: `tensor_density` of the noisy circuit has the entries obtained by applying the
operations one after the other, each followed by the channel on each of its outputs. -/
theorem c52_tensor_density_partial (hctr : Evaluates ctr) {G : TN.Glue} (hG : G.Sound) {k n K : Nat} {noise : Oper R} {c : Circ (Oper R)}
    {l : List Letter} (hd : DensBuilt ctr k (n + 1) (.circ c)) (hN : ∀ p ∈ c, Named p.2.op) (hnd : DensBuilt ctr k n noise)
    (hns : (iface ctr n).shape noise = .ok [l]) (hnl : l.flatMap Letter.ports = [.inp, .out]) (hK : n + 2 + k ≤ K) :
    ∃ c' d, addNoise ctr n noise c = .ok c' ∧ density ctr G K (n + 2) (.circ c') = .ok d ∧
      ∀ u v u' v' : Int → Nat, Good u → Good v → Good u' → Good v' →
        d.tot ((circOuts (shapes ctr n) c).map u ++ (circIns (shapes ctr n) c).map v ++
          (circOuts (shapes ctr n) c).map u' ++ (circIns (shapes ctr n) c).map v') =
        evolveDens (noisySeq (densMatrix ctr n noise) ((timeSorted c).map fun p => actOf (shapes ctr n) (densMatrix ctr n) p.2))
          (basisDens (circIns (shapes ctr n) c) v v') u u' := by
  obtain ⟨c', h1, -, h2, h3, h4, h5⟩ := c52_add_noise_partial hd hN hnd hns hnl
  obtain ⟨s, d, hs, k2, -, k3⟩ := c47_operation hctr hG h2 hK
  have hs : Circ.shape (shapes ctr (n + 1)) c' = .ok s := hs
  have hf : Fitting (shapes ctr (n + 1)) c' := by
    have := allValid_dens (n + 2) h2
    rw [AllValid] at this; exact fitting_of this.2
  refine ⟨c', d, h1, k2, fun u v u' v' hu hv hu' hv' => ?_⟩
  rw [k3 _ ?_, h5 u v u' v' hu hu']
  have b1 := bits_map (l := circOuts (shapes ctr n) c) (l' := circIns (shapes ctr n) c) hu hv
  have b2 := bits_map (l := circOuts (shapes ctr n) c) (l' := circIns (shapes ctr n) c) hu' hv'
  rw [← h3, ← h4] at b1 b2
  rw [← h3, ← h4, Circ.outs_length hf hs, Circ.ins_length hf hs, List.append_assoc, two_mul]
  exact b1.append b2

/-! ### Examples -/

/-- A circuit on the qubits 0 and 1 with a gate and a controlled gate. -/
def exInner : Circ (Oper GaussianInt) :=
  [(.str "g", ⟨.pure exG none, 0, [0]⟩), (.str "c", ⟨.ctrl exC [[.c], [.i, .o]] false none, 1, [1, 0]⟩)]

/-- A gate on the qubit 3 and a nested circuit on the qubits 3 and 2. -/
def exOuter : Circ (Oper GaussianInt) := [(.str "k", ⟨.circ exInner, 3, [3, 2]⟩), (.str "g", ⟨.pure exG none, 0, [3]⟩)]

theorem exInner_dens : DensBuilt evalAll 0 2 (.circ exInner) := by
  rw [DensBuilt]
  refine ⟨by decide, ⟨_, rfl⟩, fun p hp => ?_⟩
  simp only [exInner, List.mem_cons, List.not_mem_nil, or_false] at hp
  rcases hp with rfl | rfl
  · refine ⟨?_, by decide, _, rfl, rfl⟩
    rw [DensBuilt, Built]
    exact ⟨⟨exG_ok, fun h => by cases h⟩, TVal.flat_ten _ _⟩
  · refine ⟨?_, by decide, _, rfl, rfl⟩
    rw [DensBuilt, Built]
    exact ⟨⟨exC_ok, fun h => by cases h⟩, TVal.flat_ten _ _⟩

theorem exOuter_dens : DensBuilt evalAll 0 3 (.circ exOuter) := by
  rw [DensBuilt]
  refine ⟨by decide, ⟨_, rfl⟩, fun p hp => ?_⟩
  simp only [exOuter, List.mem_cons, List.not_mem_nil, or_false] at hp
  rcases hp with rfl | rfl
  · exact ⟨exInner_dens, by decide, _, rfl, rfl⟩
  · refine ⟨?_, by decide, _, rfl, rfl⟩
    rw [DensBuilt, Built]
    exact ⟨⟨exG_ok, fun h => by cases h⟩, TVal.flat_ten _ _⟩

/-- The hypotheses of `c52_tensor_density_partial` (and so those of `c52_add_noise_partial`) are met; the channel acts once
behind the gate and on both outputs of the nested circuit. -/
example : ∃ c' d, addNoise evalAll 2 (.imm exNoise [[.i, .o]]) exOuter = .ok c' ∧ density evalAll stdGlue 4 4 (.circ c') = .ok d ∧
    (noisySeq (densMatrix evalAll 2 (.imm exNoise [[.i, .o]]))
      ((timeSorted exOuter).map fun p => actOf (shapes evalAll 2) (densMatrix evalAll 2) p.2)).map (fun p => (p.ins, p.outs)) =
      [([3], [3]), ([3], [3]), ([3, 2], [3, 2]), ([3], [3]), ([2], [2])] := by
  obtain ⟨c', d, h1, h2, -⟩ := c52_tensor_density_partial (noise := .imm exNoise [[.i, .o]]) (l := [.i, .o]) evalAll_evaluates stdGlue_sound exOuter_dens
    (fun p hp => by
      simp only [exOuter, List.mem_cons, List.not_mem_nil, or_false] at hp
      rcases hp with rfl | rfl
      · exact ⟨2, by decide⟩
      · trivial)
    (by rw [DensBuilt]; rfl) rfl rfl (le_refl 4)
  exact ⟨c', d, h1, h2, by decide⟩

/-- C52 fails without the hypothesis on the names: for `exNoisy`, a valid circuit whose nested circuit has the qubits 3 and 5,
adding noise raises `ValueError`, since the channel is put on the positions of the outputs. -/
theorem c52_names_violated : ∃ c, exNoisy = .circ c ∧ DensBuilt evalAll 0 3 (.circ c) ∧
    addNoise evalAll 2 (.imm exNoise [[.i, .o]]) c = .error .value :=
  ⟨_, rfl, exNoisy_dens, rfl⟩

end Oper

end Verif
