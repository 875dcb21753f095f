import Verif.Lemmas.DensLoop
/-!
# C47: the density network of a circuit is the time-ordered composition of its operations on density matrices
-/

set_option linter.unusedSectionVars false

namespace Verif

variable {R : Type} [CommSemiring R]

namespace Circ

variable {α τ : Type} [HasShape τ] {sh : ShapeFn α} {D : α → List Nat → R}

/-! ### The order in which the gates are visited -/

theorem visitFwd_fst (c : Circ α) : (c.visitFwd.map fun g => g.2.2) = c.byTime.flatMap Prod.snd := by
  unfold visitFwd
  rw [List.map_flatMap]
  congr 1
  funext p
  rw [List.map_map]
  exact (List.zipIdx_map_fst 0 p.2)

theorem visitFwd_perm (c : Circ α) : (c.visitFwd.map fun g => g.2.2).Perm c := by
  rw [visitFwd_fst]
  exact inOrder_perm c

theorem visitFwd_sorted (c : Circ α) : (c.visitFwd.map fun g => g.2.2).Pairwise fun p p' => p.2.time ≤ p'.2.time := by
  rw [visitFwd_fst, List.pairwise_flatMap]
  refine ⟨fun g hg => ?_, ?_⟩
  · obtain ⟨t, -, rfl⟩ := List.mem_map.1 hg
    refine List.pairwise_of_forall_mem_list fun p hp p' hp' => ?_
    have h1 : p.2.time = t := by simpa using (List.mem_filter.1 hp).2
    have h2 : p'.2.time = t := by simpa using (List.mem_filter.1 hp').2
    omega
  · unfold byTime
    rw [List.pairwise_map]
    refine (times_pairwise c).imp fun {t t'} ht p hp p' hp' => ?_
    have h1 : p.2.time = t := by simpa using (List.mem_filter.1 hp).2
    have h2 : p'.2.time = t' := by simpa using (List.mem_filter.1 hp').2
    omega

theorem visitFwd_time {c : Circ α} {g : Int × Nat × Nm × OpRec α} (hg : g ∈ c.visitFwd) : g.1 = g.2.2.2.time := by
  obtain ⟨p, hp, hg⟩ := List.mem_flatMap.1 hg
  obtain ⟨t, -, rfl⟩ := List.mem_map.1 hp
  obtain ⟨⟨x, i⟩, hx, rfl⟩ := List.mem_map.1 hg
  have : x ∈ c.filter fun p => p.2.time = t := (List.mem_zipIdx' hx).2 ▸ List.getElem_mem _
  exact (by simpa using (List.mem_filter.1 this).2 : x.2.time = t).symm

theorem sortedWires_eq {d : Dict Int Wire} {f : Int → Wire} (h : ∀ q ∈ d.keys, d.get? q = some (f q)) :
    sortedWires d = (d.keys.insertionSort (· ≤ ·)).map f := by
  unfold sortedWires
  have key : ∀ l : List Int, (∀ q ∈ l, d.get? q = some (f q)) → l.filterMap d.get? = l.map f := fun l => by
    induction l with
    | nil => intro _; rfl
    | cons q l ih =>
      intro hl
      rw [List.filterMap_cons, hl q (by simp), List.map_cons, ih fun q hq => hl q (by simp [hq])]
  exact key _ fun q hq => h q ((List.mem_insertionSort _).1 hq)

theorem sorted_wires {d : Dict Int Wire} (h : d.keys.Nodup) : (d.keys.insertionSort (· ≤ ·)).Pairwise (· < ·) := by
  have h1 := List.pairwise_insertionSort (· ≤ · : Int → Int → Prop) d.keys
  have h2 : (d.keys.insertionSort (· ≤ ·)).Nodup := (List.perm_insertionSort _ _).nodup_iff.2 h
  exact (h1.and h2).imp fun h => lt_of_le_of_ne h.1 h.2

theorem dual_reverse_map (l : Circ α) (D : α → List Nat → R) :
    ((l.map dualEntry).reverse.map fun p => actOf (dualShape sh) (dualTen sh D) p.2).reverse =
      l.map fun p => actOf (dualShape sh) (dualTen sh D) (dualRec p.2) := by
  rw [List.map_reverse, List.reverse_reverse, List.map_map]
  rfl

/-- Running the circuit forward on density matrices and its transpose backwards on twice as many qubits. -/
theorem evolveDens_dual {l : Circ α} {Q Q' : List Int} (hf : Fitting sh l) (hc : ∀ q, Connectable (wireWord sh q l))
    (hQ : Q.Nodup) (hQ' : Q'.Nodup) (hm : ∀ q, q ∈ Q ↔ (wireWord sh q l).head? = some .inp)
    (hm' : ∀ q, q ∈ Q' ↔ (wireWord sh q l).getLast? = some .out) {u u' v v' : Int → Nat}
    (hu : ∀ q ∈ Q', u q < 2) (hu' : ∀ q ∈ Q', u' q < 2) (hv : ∀ q ∈ Q, v q < 2) (hv' : ∀ q ∈ Q, v' q < 2) :
    evolveDens (l.map fun p => actOf sh D p.2) (basisDens Q v v') u u' =
      evolve ((l.map dualEntry).reverse.map fun p => actOf (dualShape sh) (dualTen sh D) p.2)
        (basisState (twice Q') (joinAsg u u')) (joinAsg v v') := by
  obtain ⟨h1, h2⟩ := flows_of_wired (sh := sh) (ten := D) (l := l) hQ hf hc (fun q hq => (hm q).2 hq) (fun q hq hc => by
    rw [(hm q).1 hc] at hq; cases hq)
  obtain ⟨h3, h4⟩ := flows_twice h1 (twice_nodup hQ) fun k => mem_twice
  have hb : ∀ (w w' : Int → Nat) (P : List Int), (∀ q ∈ P, w q < 2) → (∀ q ∈ P, w' q < 2) → ∀ k ∈ twice P, joinAsg w w' k < 2 :=
    fun w w' P hw hw' k hk => by
      rw [mem_twice] at hk
      unfold joinAsg
      split
      · exact hw _ hk
      · exact hw' _ hk
  rw [evolve_transpose (l := (l.map fun p => actOf sh D p.2).map Act.twice) (Q := twice Q) ?_ h3 (twice_nodup hQ')
    (fun k => by
      rw [h4 k, mem_twice, hm', h2]
      refine ⟨Or.inl, fun h => h.elim id fun h => ?_⟩
      have := (hm _).1 h.2
      rw [h.1] at this
      cases this) (hb u u' Q' hu hu') (hb v v' Q hv hv'), basisState_twice, evolve_twice, splitDens_join]
  rw [dual_reverse_map, List.map_map]
  rw [List.forall₂_map_left_iff, List.forall₂_map_right_iff, List.forall₂_same]
  exact fun p hp => dual_transposes (hf p hp) D

/-- C47: the conversion of a valid circuit to a density network succeeds.  The open edges are one per qubit with a free
output and then one per qubit with a free input, both in increasing order, and then the same again.  Its entry at
outputs `u`, inputs `v`, outputs `u'` and inputs `v'` is the entry at `u`, `u'` of the density matrix obtained from the
matrix unit `|v⟩⟨v'|` by applying the operations one after the other in time order, whatever the order of operations at
the same time. -/
theorem c47_circuit {I : DensIface α τ} {val : τ → List Nat → R} {c : Circ α} (hn : c.keys.Nodup)
    (hp : c.isValid I.shape = .ok true) (hc : ∀ p ∈ c, DensOk I val D p.2) :
    ∃ (tn : TN τ) (outQ inQ : List Int), c.convertDensity I = .ok tn ∧ outQ.Pairwise (· < ·) ∧ inQ.Pairwise (· < ·) ∧
      (∀ q l, Timeline c q l → (q ∈ outQ ↔ (wireWord I.shape q l).getLast? = some .out) ∧
        (q ∈ inQ ↔ (wireWord I.shape q l).head? = some .inp)) ∧
      tn.shape? = some (List.replicate (2 * (outQ.length + inQ.length)) (some 2)) ∧
      (∀ idx, tn.value0 val idx = tn.total val idx) ∧
      ∀ l : Circ α, l.Perm c → l.Pairwise (fun p p' => p.2.time ≤ p'.2.time) →
        ∀ u v u' v' : Int → Nat, (∀ q ∈ outQ, u q < 2) → (∀ q ∈ inQ, v q < 2) → (∀ q ∈ outQ, u' q < 2) →
        (∀ q ∈ inQ, v' q < 2) → tn.value0 val (outQ.map u ++ inQ.map v ++ outQ.map u' ++ inQ.map v') =
          evolveDens (l.map fun p => actOf I.shape D p.2) (basisDens inQ v v') u u' := by
  have hfit : Fitting I.shape c := fun p hp => (hc p hp).fit
  have hshape : ∃ s, c.shape I.shape = .ok s := by
    unfold isValid at hp
    cases hs : c.shape I.shape with
    | ok s => exact ⟨s, rfl⟩
    | error e => rw [hs] at hp; cases e <;> simp at hp
  have hval := (c35_shape_iff hfit).1 hshape
  obtain ⟨hw0, hword⟩ := wired_of_valid hval (visitFwd_perm c) (visitFwd_sorted c)
  have hfit0 : Fitting I.shape (c.visitFwd.map fun g => g.2.2) := fun p hp => hfit p ((visitFwd_perm c).mem_iff.1 hp)
  have hdl : ((c.visitFwd.map fun g => dualEntry g.2.2).reverse) = ((c.visitFwd.map fun g => g.2.2).map dualEntry).reverse := by
    rw [List.map_map]; rfl
  have hw := dual_wired hfit0 hw0
  have hnames : (c.visitFwd.map fun g => g.2.2.1).Nodup := by
    have h1 : (c.visitFwd.map fun g => g.2.2.1) = (c.visitFwd.map fun g => g.2.2).map Prod.fst := by rw [List.map_map]; rfl
    rw [h1]
    exact ((visitFwd_perm c).map _).nodup_iff.2 hn
  obtain ⟨s, F, h1, h2, h3, h4, h5⟩ := densLoop_spec (I := I) (val := val) (D := D) c.visitFwd [] {}
    ⟨[], [], [], fun _ => .nil, [], fun _ => .nil⟩
    ⟨DrawsD.nil val, rfl, by simp [Dict.keys], by simp [Dict.keys], by simp [edgeAt, Dict.get?], by simp [edgeAt, Dict.get?]⟩
    (Front.ok_nil _ _) ⟨by simp [wireWord], by simp [wireWord], by simp [Known], by simp [Known]⟩
    (Front.computes_nil _ _ _) (by rw [List.append_nil, hdl]; exact hw)
    (fun g hg => ⟨visitFwd_time hg, hc g.2.2 ((visitFwd_perm c).mem_iff.1 (List.mem_map.2 ⟨g, hg, rfl⟩))⟩)
    hnames (by simp [Dict.keys])
  rw [List.append_nil, hdl] at h4 h5
  have hV1 := visitFwd_perm c
  have hV2 := visitFwd_sorted c
  generalize (c.visitFwd.map fun g => g.2.2) = V at *
  have hfitV : ∀ p ∈ V, FitRec I.shape p.2 := hfit0
  -- the open edges
  have hlive : ∀ k, k ∈ F.live ↔ k / 2 ∈ s.dic.keys := fun k => by
    have := h2.dic k
    unfold edgeAt at this
    rw [← Dict.get?_isSome]
    by_cases hk : k ∈ F.live
    · rw [if_pos hk] at this
      obtain ⟨w, hw, -⟩ := Option.map_eq_some_iff.1 this
      simp [hk, hw]
    · rw [if_neg hk, Option.map_eq_none_iff] at this
      simp [hk, this]
  have hends : ∀ k, k ∈ F.ends ↔ k / 2 ∈ s.dicIn.keys := fun k => by
    have := h2.din k
    unfold edgeAt at this
    rw [← Dict.get?_isSome]
    by_cases hk : k ∈ F.ends
    · rw [if_pos hk] at this
      obtain ⟨w, hw, -⟩ := Option.map_eq_some_iff.1 this
      simp [hk, hw]
    · rw [if_neg hk, Option.map_eq_none_iff] at this
      simp [hk, this]
  have hso := sorted_wires h2.dic_nodup
  have hsi := sorted_wires h2.din_nodup
  have hmo : ∀ k, k / 2 ∈ s.dic.keys.insertionSort (· ≤ ·) ↔ k ∈ F.live := fun q => by
    rw [List.mem_insertionSort, hlive]
  have hmi : ∀ k, k / 2 ∈ s.dicIn.keys.insertionSort (· ≤ ·) ↔ k ∈ F.ends := fun q => by
    rw [List.mem_insertionSort, hends]
  have e2 : ∀ q : Int, 2 * q / 2 = q := fun q => by omega
  have e3 : ∀ q : Int, (2 * q + 1) / 2 = q := fun q => by omega
  have hopn : densLegs (sortedWires s.dicOut) (sortedWires s.dicIn) =
      (s.dic.keys.insertionSort (· ≤ ·)).map (fun q => F.dic (2 * q)) ++
      (s.dicIn.keys.insertionSort (· ≤ ·)).map (fun q => F.dout (2 * q)) ++
      (s.dic.keys.insertionSort (· ≤ ·)).map (fun q => F.dic (2 * q + 1)) ++
      (s.dicIn.keys.insertionSort (· ≤ ·)).map (fun q => F.dout (2 * q + 1)) := by
    have hg : ∀ d : Dict Int Wire, sortedWires d = (d.keys.insertionSort (· ≤ ·)).map fun q => (d.get? q).getD ⟨0, 0, 0⟩ :=
      fun d => sortedWires_eq fun q hq => by
        obtain ⟨w, hw⟩ := Dict.exists_get? hq
        rw [hw]; rfl
    have key : ∀ (d : Dict Int Wire) (f : Int → Nm) (k : Int), edgeAt d k = some (f k) →
        ((d.get? (k / 2)).getD ⟨0, 0, 0⟩).edge (tagOf k) = f k := fun d f k h => by
      obtain ⟨w, hw, h'⟩ := Option.map_eq_some_iff.1 h
      rw [hw]; exact h'
    have t2 : ∀ q : Int, tagOf (2 * q) = "p" := fun q => if_pos (by omega)
    have t3 : ∀ q : Int, tagOf (2 * q + 1) = "d" := fun q => if_neg (by omega)
    rw [h2.dout, hg, hg]
    unfold densLegs
    simp only [List.map_map]
    congr 1
    · congr 1
      · congr 1
        · refine List.map_congr_left fun q hq => ?_
          have := key s.dic F.dic (2 * q) (by rw [h2.dic, if_pos ((hmo _).1 (by rw [e2]; exact hq))])
          rw [e2, t2] at this
          exact this
        · refine List.map_congr_left fun q hq => ?_
          have := key s.dicIn F.dout (2 * q) (by rw [h2.din, if_pos ((hmi _).1 (by rw [e2]; exact hq))])
          rw [e2, t2] at this
          exact this
      · refine List.map_congr_left fun q hq => ?_
        have := key s.dic F.dic (2 * q + 1) (by rw [h2.dic, if_pos ((hmo _).1 (by rw [e3]; exact hq))])
        rw [e3, t3] at this
        exact this
    · refine List.map_congr_left fun q hq => ?_
      have := key s.dicIn F.dout (2 * q + 1) (by rw [h2.din, if_pos ((hmi _).1 (by rw [e3]; exact hq))])
      rw [e3, t3] at this
      exact this
  generalize s.dic.keys.insertionSort (· ≤ ·) = outQ at hso hmo hopn
  generalize s.dicIn.keys.insertionSort (· ≤ ·) = inQ at hsi hmi hopn
  have hOE : ∀ e, e ∈ densLegs (sortedWires s.dicOut) (sortedWires s.dicIn) ↔
      (∃ k ∈ F.live, e = F.dic k) ∨ ∃ k ∈ F.ends, e = F.dout k := fun e => by
    rw [hopn]
    simp only [List.mem_append, List.mem_map]
    constructor
    · rintro (((⟨q, h, rfl⟩ | ⟨q, h, rfl⟩) | ⟨q, h, rfl⟩) | ⟨q, h, rfl⟩)
      · exact Or.inl ⟨_, (hmo _).1 (by rw [e2]; exact h), rfl⟩
      · exact Or.inr ⟨_, (hmi _).1 (by rw [e2]; exact h), rfl⟩
      · exact Or.inl ⟨_, (hmo _).1 (by rw [e3]; exact h), rfl⟩
      · exact Or.inr ⟨_, (hmi _).1 (by rw [e3]; exact h), rfl⟩
    · rintro (⟨k, h, rfl⟩ | ⟨k, h, rfl⟩)
      · rcases Int.emod_two_eq_zero_or_one k with h0 | h0
        · exact Or.inl (Or.inl (Or.inl ⟨k / 2, (hmo k).2 h, by rw [show 2 * (k / 2) = k by omega]⟩))
        · exact Or.inl (Or.inr ⟨k / 2, (hmo k).2 h, by rw [show 2 * (k / 2) + 1 = k by omega]⟩)
      · rcases Int.emod_two_eq_zero_or_one k with h0 | h0
        · exact Or.inl (Or.inl (Or.inr ⟨k / 2, (hmi k).2 h, by rw [show 2 * (k / 2) = k by omega]⟩))
        · exact Or.inr ⟨k / 2, (hmi k).2 h, by rw [show 2 * (k / 2) + 1 = k by omega]⟩
  generalize hopnD : densLegs (sortedWires s.dicOut) (sortedWires s.dicIn) = opn at hopn hOE
  have hOEk : ∀ e ∈ opn, e ∈ s.tn.edges.keys := fun e he =>
    (h2.draws.keys e).2 (h4.legs e (Or.inr ((hOE e).1 he)))
  have htot : ∀ idx, TN.value0 val { s.tn with openE := opn } idx = TN.total val { s.tn with openE := opn } idx := by
    refine TN.value0_total (tn := { s.tn with openE := opn }) h2.draws.nodup ?_ ?_
    · intro e he
      rcases List.mem_append.1 (List.mem_dedup.1 he) with he | he
      · obtain ⟨f, hf, he⟩ := List.mem_flatMap.1 he
        exact (h2.draws.legs e).2 ⟨f, hf, he⟩
      · exact hOEk e he
    · intro e r hr hnu
      obtain ⟨f, hf, he⟩ := (h2.draws.legs e).1 (Dict.mem_keys_of_get? hr)
      exact absurd (List.mem_dedup.2 (List.mem_append_left _ (List.mem_flatMap.2 ⟨f, hf, he⟩))) hnu
  have hinQ : ∀ q, q ∈ inQ ↔ (wireWord I.shape q V).head? = some .inp := fun q => by
    have := hmi (2 * q)
    rw [e2] at this
    rw [this, h4.ends, dual_word hfitV, e2, flipWord_last]
  have houtQ : ∀ q, q ∈ outQ ↔ (wireWord I.shape q V).getLast? = some .out := fun q => by
    have := hmo (2 * q)
    rw [e2] at this
    rw [this, h4.live, dual_word hfitV, e2, flipWord_head]
  have hopl : opn.length = 2 * (outQ.length + inQ.length) := by rw [hopn]; simp; omega
  refine ⟨{ s.tn with openE := opn }, outQ, inQ, ?_, hso, hsi, fun q l hl => ?_, ?_, htot, ?_⟩
  · unfold convertDensity
    rw [hp]
    dsimp only
    rw [h1]
    dsimp only
    rw [hopnD]
  · rw [hword q l hl]
    exact ⟨houtQ q, hinQ q⟩
  · unfold TN.shape?
    dsimp only
    have key : ∀ l : List Nm, (∀ e ∈ l, e ∈ s.tn.edges.keys) →
        l.mapM (fun e => (s.tn.edges.get? e).map EdgeRec.dim) = some (List.replicate l.length (some 2)) := fun l => by
      induction l with
      | nil => intro _; rfl
      | cons e l ih =>
        intro h
        obtain ⟨r, hr⟩ := Dict.exists_get? (h e (by simp))
        rw [List.mapM_cons, ih fun e he => h e (by simp [he]), hr, Option.map_some, h2.draws.recs e r hr]
        rfl
    rw [key _ hOEk, hopl]
  · intro l hlp hls u v u' v' hu hv hu' hv'
    have nd : ∀ {l : List Int}, l.Pairwise (· < ·) → l.Nodup := fun h => h.imp fun h => ne_of_lt h
    obtain ⟨hwl, hwordl⟩ := wired_of_valid hval hlp hls
    have hwq : ∀ q, wireWord I.shape q V = wireWord I.shape q l := fun q => by
      obtain ⟨l', hl', -⟩ := hval q
      rw [← hword q l' hl', hwordl q l' hl']
    rw [evolveDens_dual (Q' := outQ) (fun p hp => hfit p (hlp.mem_iff.1 hp)) hwl.chain (nd hsi) (nd hso) (fun q => by rw [hinQ, hwq])
      (fun q => by rw [houtQ, hwq]) hu hu' hv hv']
    -- any time order gives the same
    have hsortd : ∀ {m : Circ α}, m.Pairwise (fun p p' => p.2.time ≤ p'.2.time) →
        (m.map dualEntry).reverse.Pairwise fun p p' => p.2.time ≤ p'.2.time := fun {m} hm => by
      rw [List.pairwise_reverse, List.pairwise_map]
      exact hm.imp fun {a b} h => show -b.2.time ≤ -a.2.time by omega
    have hinj : ∀ p p' : Nm × OpRec α, dualEntry p = dualEntry p' → p = p' := fun p p' h => by
      obtain ⟨n, op, t, qs⟩ := p
      obtain ⟨n', op', t', qs'⟩ := p'
      simp only [dualEntry, dualRec, Prod.mk.injEq, OpRec.mk.injEq, neg_inj] at h
      obtain ⟨h1, h2, h3, h4⟩ := h
      have h5 : qs.length = qs'.length := by
        have := congrArg List.length h4
        rw [twice_length, twice_length] at this
        omega
      have h6 := (List.append_inj h4 (by simp [h5])).1
      have h7 : qs = qs' := (List.map_injective_iff.2 fun a b h => by
        have h : 2 * a = 2 * b := h
        omega) h6
      rw [h1, h2, h3, h7]
    have hev : evolve ((l.map dualEntry).reverse.map fun p => actOf (dualShape I.shape) (dualTen I.shape D) p.2)
        (basisState (twice outQ) (joinAsg u u')) (joinAsg v v') =
        evolve ((V.map dualEntry).reverse.map fun p => actOf (dualShape I.shape) (dualTen I.shape D) p.2)
        (basisState (twice outQ) (joinAsg u u')) (joinAsg v v') := by
      refine congrFun (evolve_order ?_ ?_ (hsortd hls) (hsortd hV2) ?_ _) _
      · exact (List.reverse_perm _).trans (((hlp.trans hV1.symm).map _).trans (List.reverse_perm _).symm)
      · rw [List.nodup_reverse]
        exact (hlp.nodup_iff.2 (List.Nodup.of_map _ hn)).map hinj
      · intro p hp1 p' hp2 hne ht k hk hk'
        obtain ⟨a, ha, rfl⟩ := List.mem_map.1 (List.mem_reverse.1 hp1)
        obtain ⟨b, hb, rfl⟩ := List.mem_map.1 (List.mem_reverse.1 hp2)
        obtain ⟨l', hl', -⟩ := hval (k / 2)
        have m1 : a ∈ l' := hl'.1.mem_iff.2 (List.mem_filter.2 ⟨hlp.mem_iff.1 ha, decide_eq_true (mem_twice.1 hk)⟩)
        have m2 : b ∈ l' := hl'.1.mem_iff.2 (List.mem_filter.2 ⟨hlp.mem_iff.1 hb, decide_eq_true (mem_twice.1 hk')⟩)
        have h6 : l'.Pairwise fun p p' => p.2.time ≠ p'.2.time := hl'.2.imp fun h => ne_of_lt h
        have : Std.Symm fun p p' : Nm × OpRec α => p.2.time ≠ p'.2.time := ⟨fun _ _ h => h.symm⟩
        refine h6.forall m1 m2 (fun e => hne (by rw [e])) ?_
        have ht : -a.2.time = -b.2.time := ht
        omega
    rw [hev]
    have hU : ∀ k ∈ F.live, joinAsg u u' k < 2 := fun k hk => by
      unfold joinAsg
      split
      · exact hu _ ((hmo k).2 hk)
      · exact hu' _ ((hmo k).2 hk)
    have hVb : ∀ k ∈ F.ends, joinAsg v v' k < 2 := fun k hk => by
      unfold joinAsg
      split
      · exact hv _ ((hmi k).2 hk)
      · exact hv' _ ((hmi k).2 hk)
    have hidx : outQ.map u ++ inQ.map v ++ outQ.map u' ++ inQ.map v' =
        opn.map (F.asg dualQubit (joinAsg u u') (joinAsg v v')) := by
      have a1 : ∀ k ∈ F.live, F.asg dualQubit (joinAsg u u') (joinAsg v v') (F.dic k) = joinAsg u u' k := fun k hk => by
        unfold Front.asg
        rw [h3.dic_qb k hk, if_pos ⟨hk, rfl⟩]
      have a2 : ∀ k ∈ F.ends, F.asg dualQubit (joinAsg u u') (joinAsg v v') (F.dout k) = joinAsg v v' k := fun k hk => by
        unfold Front.asg
        rw [h3.dout_qb k hk, if_neg]
        exact fun hc => h3.differ k hc.1 hk hc.2
      rw [hopn]
      simp only [List.map_append, List.map_map]
      congr 1
      · congr 1
        · congr 1
          · refine List.map_congr_left fun q hq => ?_
            show u q = F.asg _ _ _ (F.dic (2 * q))
            rw [a1 _ ((hmo _).1 (by rw [e2]; exact hq)), joinAsg_even]
          · refine List.map_congr_left fun q hq => ?_
            show v q = F.asg _ _ _ (F.dout (2 * q))
            rw [a2 _ ((hmi _).1 (by rw [e2]; exact hq)), joinAsg_even]
        · refine List.map_congr_left fun q hq => ?_
          show u' q = F.asg _ _ _ (F.dic (2 * q + 1))
          rw [a1 _ ((hmo _).1 (by rw [e3]; exact hq)), joinAsg_odd]
      · refine List.map_congr_left fun q hq => ?_
        show v' q = F.asg _ _ _ (F.dout (2 * q + 1))
        rw [a2 _ ((hmi _).1 (by rw [e3]; exact hq)), joinAsg_odd]
    generalize joinAsg u u' = U at *
    generalize joinAsg v v' = W at *
    have hmU : ∀ k, k ∈ twice outQ ↔ k ∈ F.live := fun k => by rw [mem_twice, hmo]
    -- the evolution is the kernel
    have hb : Blind (R := R) (basisState (twice outQ) U)
        fun q => (wireWord (dualShape I.shape) q (V.map dualEntry).reverse).head? = some .out := fun a b hab => by
      unfold basisState
      refine if_congr (forall_congr' fun q => forall_congr' fun hq => ?_) rfl rfl
      rw [hab q]
      intro hc
      rw [(h4.live q).1 ((hmU q).1 hq)] at hc
      cases hc
    rw [h5 _ hb W]
    have hpin : sumOver bits F.live (fun x => F.kernel (F.asg dualQubit x W) * basisState (twice outQ) U x) W =
        F.kernel (F.asg dualQubit U W) := by
      have e1 : ∀ x, F.kernel (F.asg dualQubit x W) * basisState (twice outQ) U x =
          if F.live.map x = F.live.map U then F.kernel (F.asg dualQubit x W) else 0 := fun x => by
        have e2 : (∀ q ∈ twice outQ, x q = U q) ↔ F.live.map x = F.live.map U := by
          rw [List.map_inj_left]
          exact forall_congr' fun q => by rw [hmU]
        unfold basisState
        by_cases h : F.live.map x = F.live.map U
        · rw [if_pos h, if_pos (e2.2 h), mul_one]
        · rw [if_neg h, if_neg fun hc => h (e2.1 hc), mul_zero]
      simp only [e1]
      refine (sumOver_pin (fun q hq => Finset.mem_range.2 (hU q hq)) h3.live_nodup
        (fun x => F.kernel (F.asg dualQubit x W)) W).trans ?_
      refine congrArg F.kernel (funext fun e => ?_)
      unfold Front.asg
      by_cases h : dualQubit e ∈ F.live ∧ F.dic (dualQubit e) = e
      · rw [if_pos h, if_pos h]; exact if_pos h.1
      · rw [if_neg h, if_neg h]
    rw [hpin, htot, TN.total]
    have hdom : ∀ e ∈ s.tn.edges.keys, TN.dom { s.tn with openE := opn } e = Finset.range 2 := fun e he => by
      obtain ⟨r, hr⟩ := Dict.exists_get? he
      unfold TN.dom
      dsimp only
      rw [hr, h2.draws.recs e r hr]
      rfl
    have hein : sumOver (TN.dom { s.tn with openE := opn }) s.tn.edges.keys
        (fun b => if opn.map b = outQ.map u ++ inQ.map v ++ outQ.map u' ++ inQ.map v' then prodAt (s.tn.factors val) b else 0)
        (fun _ => 0) = einsum (fun _ => Finset.range 2) F.fs opn (outQ.map u ++ inQ.map v ++ outQ.map u' ++ inQ.map v') := by
      rw [einsum_eq_of_mem h2.draws.nodup]
      · rw [sumOver_dom_congr hdom]
        exact sumOver_congr fun b => by rw [h2.draws.prod b]
      · intro e
        rw [mem_usedEdges, h2.draws.keys]
        refine ⟨Or.inl, fun h => h.elim id fun h => h4.legs e (Or.inr ((hOE e).1 h))⟩
    refine hein.trans ?_
    rw [hidx]
    refine einsum_at (fun e he => ?_) h3.closed_nodup fun e => ?_
    · rw [Finset.mem_range]
      unfold Front.asg
      rcases (hOE e).1 he with ⟨q, hq, rfl⟩ | ⟨q, hq, rfl⟩
      · rw [h3.dic_qb q hq, if_pos ⟨hq, rfl⟩]; exact hU q hq
      · rw [h3.dout_qb q hq, if_neg fun hc => h3.differ q hc.1 hq hc.2]; exact hVb q hq
    · constructor
      · intro he
        refine ⟨h4.legs e (Or.inl he), fun hc => ?_⟩
        rcases (hOE e).1 hc with ⟨q, hq, rfl⟩ | ⟨q, hq, rfl⟩
        · exact h3.dic_open q hq he
        · exact h3.dout_open q hq he
      · rintro ⟨⟨f, hf, he⟩, hno⟩
        rcases h3.legs f hf e he with h | h | h
        · exact h
        · exact absurd ((hOE e).2 (Or.inl h)) hno
        · exact absurd ((hOE e).2 (Or.inr h)) hno

end Circ

end Verif
