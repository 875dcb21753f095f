import Verif.Props.Sequence
import Verif.Props.Ghz
import Verif.Props.Noise
/-!
# C65: the density of `b | ~a` is the overlap of the states
-/

namespace Verif

namespace Oper

open Circ

section

variable {R : Type} [CommSemiring R] [StarRing R] {ctr : TVal R → Except Err (Arr R)} {G : TN.Glue}

theorem built_of_sound : ∀ (n : Nat) {op : Oper R}, Sound ctr n op → Built ctr n false op
  | 0, op, h => by cases op <;> exact absurd h (by simp [Sound])
  | n + 1, .imm _ _, h => absurd h (by simp [Sound])
  | n + 1, .pure p q, h => by rw [Sound] at h; rw [Built]; exact ⟨h.1, fun e => by cases e⟩
  | n + 1, .ctrl d s sa ov, h => by rw [Sound] at h; rw [Built]; exact ⟨h.1, fun e => by cases e⟩
  | n + 1, .cctrl _ _ _, h => absurd h (by simp [Sound])
  | n + 1, .circ c, h => by
    rw [Sound] at h; rw [Built]
    exact ⟨h.1, h.2.1, fun p hp => ⟨built_of_sound n (h.2.2.1 p hp).1, (h.2.2.1 p hp).2⟩, fun e => by cases e⟩
  | n + 1, .sup terms s, h => by
    rw [Sound] at h; rw [Built]
    exact ⟨h.1, fun p hp => built_of_sound n (h.2 p hp), fun e => by cases e⟩

/-- The ends of a circuit as an operation are those of its wires. -/
theorem circ_ends {sh : ShapeFn (Oper R)} {d : Circ (Oper R)} {s : List (List Letter)} (hf : Fitting sh d) (hs : d.shape sh = .ok s) :
    (∀ q, Connectable (portsAt s (qubitsOf d) q)) ∧ outQubits s (qubitsOf d) = circOuts sh d ∧ inQubits s (qubitsOf d) = circIns sh d := by
  have hA := adds_circ (ok := fun _ => True) (fun _ _ => trivial) hf hs
  have hc := (Circ.wired_sorted hf hs).chain
  have hL := hA.like' hc
  refine ⟨fun q => (hL q).chain (hc q), ?_, ?_⟩
  · refine sorted_unique ((qubitsOf_sorted d).filter _) (circOuts_sorted sh d) fun q => ?_
    rw [mem_outQubits, mem_circOuts, (hL q).last]
  · refine sorted_unique ((qubitsOf_sorted d).filter _) (circIns_sorted sh d) fun q => ?_
    rw [mem_inQubits, mem_circIns, (hL q).head]

theorem bits_of_inRange : ∀ {m : Nat} {x : List Nat}, InRange (List.replicate m 2) x → Bits x m
  | 0, x, h => by cases h; exact ⟨rfl, by simp⟩
  | m + 1, x, h => by
    rw [List.replicate_succ] at h
    cases h with
    | cons h1 h2 =>
      obtain ⟨k1, k2⟩ := bits_of_inRange h2
      exact ⟨by simp [k1], fun b hb => by
        rcases List.mem_cons.1 hb with rfl | hb
        · exact h1
        · exact k2 b hb⟩

omit [CommSemiring R] [StarRing R] in
theorem qubitsOf_flip (f : Oper R → Oper R) (T : Int) (c : Circ (Oper R)) : qubitsOf (c.map (flipEntry f T)) = qubitsOf c := by
  refine sorted_unique (qubitsOf_sorted _) (qubitsOf_sorted _) fun q => ?_
  rw [Circ.mem_qubitsOf, Circ.mem_qubitsOf]
  constructor
  · rintro ⟨p, hp, hq⟩
    obtain ⟨p0, h0, rfl⟩ := List.mem_map.1 hp
    exact ⟨p0, h0, hq⟩
  · rintro ⟨p, hp, hq⟩
    exact ⟨_, List.mem_map.2 ⟨p, hp, rfl⟩, hq⟩

/-- The adjoint of a circuit. -/
theorem circ_adjoint {n : Nat} {a : Circ (Oper R)} (h : Sound ctr (n + 1) (.circ a)) : ∃ a' s, adjoint ctr (n + 1) (.circ a) = .ok (.circ a') ∧
    Sound ctr (n + 1) (.circ a') ∧ Circ.shape (shapes ctr n) a = .ok s ∧ Circ.shape (shapes ctr n) a' = .ok (flipShape s) ∧
    a' = a.map (flipEntry (adjD (adjoint ctr n)) a.maxTime) ∧
    ConjTransposed (matrix ctr (n + 1) (.circ a')) (matrix ctr (n + 1) (.circ a)) (inPlaces s).length (outPlaces s).length := by
  obtain ⟨op', s, t, t', k1, k2, k3, k4, k5⟩ := adjoint_sound ctr (n + 1) (.circ a) h
  have h' := h
  rw [Sound] at h'
  obtain ⟨h1, ⟨s', h2⟩, h3, h4⟩ := h'
  have hm : Circ.OpsMean (iface ctr n) (matrix ctr n) a := fun p hp => by
    obtain ⟨j1, j2, s, j3, j4⟩ := h3 p hp
    obtain ⟨s', t, j5⟩ := means_sound ctr n p.2.op j1
    rw [j5.shape] at j3
    cases j3
    exact ⟨_, t, j5, j4, j2⟩
  have ha : Circ.OpsAdjoint (iface ctr n) (matrix ctr n) (adjoint ctr n) a := fun p hp => by
    obtain ⟨op', s, t, t', k1, -, k2, k3, k4⟩ := adjoint_sound ctr n p.2.op (h3 p hp).1
    exact ⟨s, t, op', t', k1, k2, k3, k4⟩
  obtain ⟨c', a1, a2, a3, a4, a5, a6⟩ := Circ.means_adjoint h1 h2 hm ha h4
  have e : adjoint ctr (n + 1) (.circ a) = .ok (.circ c') := by
    show (Circ.adjoint (iface ctr n) (adjoint ctr n) a).map _ = _
    rw [a1]; rfl
  rw [e] at k1
  cases k1
  exact ⟨c', s, e, k2, k3.shape, k4.shape, a2, k5⟩

/-- **C65.**  `a` is a circuit of pure operations and `b` any circuit, both without inputs and with the same outputs.  Then
`(b | a.adjoint()).tensor_density` is a number, `⟨ψ|ρ|ψ⟩` for the state `ψ` of `a` (`tensor_pure`) and the density matrix `ρ` of `b`
(`tensor_density`).  Partial: no operation of `b` was given by hand a name of the form `(t, qubits)` (C39), and data of gates of the adjoint that are
networks have harmless names (`DensBuilt`). -/
theorem c65_overlap_partial (hctr : Evaluates ctr) (hG : G.Sound) {n k K : Nat} {a b : Circ (Oper R)} (ha : Sound ctr (n + 1) (.circ a))
    (had : ∀ op, adjoint ctr (n + 1) (.circ a) = .ok op → DensBuilt ctr k (n + 1) op) (hb : DensBuilt ctr k (n + 1) (.circ b)) (hst : Stamped b)
    (hia : circIns (shapes ctr n) a = []) (hib : circIns (shapes ctr n) b = []) (ho : circOuts (shapes ctr n) a = circOuts (shapes ctr n) b)
    (hK : n + 2 + k ≤ K) :
    ∃ a' c t r d, adjoint ctr (n + 1) (.circ a) = .ok a' ∧ orOper (shapes ctr (n + 1)) (.circ b) a' = .ok c ∧
      (iface ctr (n + 1)).tensor (.circ a) = .ok t ∧ density ctr G K (n + 1) (.circ b) = .ok r ∧
      density ctr G K (n + 2) (.circ c) = .ok d ∧ d.shape = some [] ∧
      d.tot [] = sumIdx (List.replicate (circOuts (shapes ctr n) a).length 2) fun y =>
        sumIdx (List.replicate (circOuts (shapes ctr n) a).length 2) fun y' => star (t.tot y) * t.tot y' * r.tot (y ++ y') := by
  obtain ⟨a', s, h1, h2, h3, h4, h5, h6⟩ := circ_adjoint ha
  have hd' := had _ h1
  obtain ⟨sb, r, hsb, hr, hrd, hre⟩ := c47_operation hctr hG hb (K := K) (by omega)
  have hsb : Circ.shape (shapes ctr n) b = .ok sb := hsb
  have fit : ∀ {c : Circ (Oper R)}, DensBuilt ctr k (n + 1) (.circ c) → Fitting (shapes ctr n) c := fun h => by
    have := allValid_dens _ h
    rw [AllValid] at this; exact fitting_of this.2
  have fa : Fitting (shapes ctr n) a := by
    rw [Sound] at ha
    intro p hp
    obtain ⟨-, j2, s, j3, j4⟩ := ha.2.2.1 p hp
    exact ⟨s, j3, j4, j2⟩
  obtain ⟨eb1, eb2, eb3⟩ := circ_ends (fit hb) hsb
  obtain ⟨ea1, ea2, ea3⟩ := circ_ends (fit hd') h4
  obtain ⟨-, eo, ei⟩ := circ_ends fa h3
  have hq : qubitsOf a' = qubitsOf a := by rw [h5]; exact qubitsOf_flip _ _ _
  have hqn := nodup_of_sorted (qubitsOf_sorted a)
  have hia' : inQubits (flipShape s) (qubitsOf a') = circOuts (shapes ctr n) a := by rw [hq, inQubits_flip hqn, eo]
  have hoa' : outQubits (flipShape s) (qubitsOf a') = [] := by rw [hq, outQubits_flip hqn, ei, hia]
  have lo : (outPlaces s).length = (circOuts (shapes ctr n) a).length := outs_length fa h3
  have li : (inPlaces s).length = 0 := by rw [ins_length fa h3, hia]; rfl
  have lob : (outPlaces sb).length = (circOuts (shapes ctr n) a).length := by rw [outs_length (fit hb) hsb, ho]
  have lib : (inPlaces sb).length = 0 := by rw [ins_length (fit hb) hsb, hib]; rfl
  obtain ⟨c, k1, k2, k3, k4, k5⟩ := c55_product_density_partial (a := .circ b) (b := .circ a') hb hd' (sa := sb) (sb := flipShape s) hsb h4
    (fun d e => by cases e; exact hst) eb1 ea1 (by
      show outQubits sb (qubitsOf b) = inQubits (flipShape s) (qubitsOf a')
      rw [eb2, hia', ho])
  have k3 : circIns (shapes ctr (n + 1)) c = inQubits sb (qubitsOf b) := k3
  have k4 : circOuts (shapes ctr (n + 1)) c = outQubits (flipShape s) (qubitsOf a') := k4
  have k5' := k5 [] [] [] [] (by rw [k4, hoa']; exact ⟨rfl, by simp⟩) (by rw [k3, eb3, hib]; exact ⟨rfl, by simp⟩)
    (by rw [k4, hoa']; exact ⟨rfl, by simp⟩) (by rw [k3, eb3, hib]; exact ⟨rfl, by simp⟩)
  have hl : (outQubits sb (names true (.circ b) sb.length)).length = (circOuts (shapes ctr n) a).length := by
    show (outQubits sb (qubitsOf b)).length = _
    rw [eb2, ho]
  rw [hl] at k5'
  obtain ⟨sc, d, m1, m2, m3, m4⟩ := c47_operation hctr hG k2 (K := K) (by omega)
  have m1 : Circ.shape (shapes ctr (n + 1)) c = .ok sc := m1
  have fc : Fitting (shapes ctr (n + 1)) c := by
    have := allValid_dens _ k2
    rw [AllValid] at this; exact fitting_of this.2
  have loc : (outPlaces sc).length = 0 := by rw [outs_length fc m1, k4, hoa']; rfl
  have lic : (inPlaces sc).length = 0 := by rw [ins_length fc m1, k3, eb3, hib]; rfl
  obtain ⟨s2, t, t1, -⟩ := means_built hctr _ _ _ (built_of_sound _ ha)
  have : s2 = s := by have := t1.shape; rw [show (iface ctr (n + 1)).shape (.circ a) = .ok s from h3] at this; cases this; rfl
  subst this
  obtain ⟨s3, t3, d3, p1, p2, p3⟩ := paired_built hctr hG (n + 1) false (.circ a') (densFlat_of hctr _ hd' (K := K) (by omega)) (built_of_sound _ h2)
  have : s3 = flipShape s2 := by have := p1.shape; rw [show (iface ctr (n + 1)).shape (.circ a') = .ok (flipShape s2) from h4] at this; cases this; rfl
  subst this
  rw [outPlaces_flip, inPlaces_flip, li, lo, Nat.zero_add] at p3
  refine ⟨_, c, t, r, d, h1, k1, t1.tensor, hr, m2, by rw [m3, loc, lic]; rfl, ?_⟩
  rw [m4 [] (by rw [loc, lic]; exact ⟨rfl, by simp⟩)]
  refine Eq.trans k5' (sumIdx_congr fun y hy => sumIdx_congr fun y' hy' => ?_)
  have by' := bits_of_inRange hy
  have by'' := bits_of_inRange hy'
  simp only [List.nil_append, List.append_nil]
  rw [p3 y y' by' by'', hre _ (by rw [lob, lib, Nat.add_zero, two_mul]; exact by'.append by'')]
  have q1 := h6 [] y (by rw [li]; rfl) (by rw [lo]; exact by'.1) (by simp) by'.2
  have q2 := h6 [] y' (by rw [li]; rfl) (by rw [lo]; exact by''.1) (by simp) by''.2
  simp only [List.nil_append, List.append_nil] at q1 q2
  rw [q1, q2, star_star, t1.entries y (by rw [lo, li, Nat.add_zero]; exact by'), t1.entries y' (by rw [lo, li, Nat.add_zero]; exact by'')]

end

/-! ### The GHZ state -/

theorem sumIdx_two {M : Type} [AddCommMonoid M] {n : Nat} {x y : List Nat} (hx : Bits x n) (hy : Bits y n) (hne : x ≠ y) {f : List Nat → M}
    (h : ∀ w, Bits w n → w ≠ x → w ≠ y → f w = 0) : sumIdx (List.replicate n 2) f = f x + f y := by
  have e : sumIdx (List.replicate n 2) f = sumIdx (List.replicate n 2) fun w => ([x, y].map fun i => if w = i then f w else 0).sum :=
    sumIdx_bits fun w hw => by
      simp only [List.map_cons, List.map_nil, List.sum_cons, List.sum_nil, add_zero]
      by_cases h1 : w = x
      · subst h1; simp [hne]
      · by_cases h2 : w = y
        · subst h2; simp [h1]
        · simp [h1, h2, h w hw h1 h2]
  rw [e, sumIdx_list n [x, y] fun i w => if w = i then f w else 0]
  simp only [List.map_cons, List.map_nil, List.sum_cons, List.sum_nil, add_zero]
  rw [sumIdx_pin hx, sumIdx_pin hy]

variable {ctr : TVal ℂ → Except Err (Arr ℂ)} {G : TN.Glue}

theorem zeroMeas_ok : PureOk zeroMeasRec := by
  refine ⟨by decide, rfl, ?_, ?_, fun h => by cases h⟩
  · unfold zeroMeasRec
    rw [TVal.Whole]
    trivial
  · intro b k h
    simp only [zeroMeasRec, Option.some.injEq, Prod.mk.injEq] at h
    obtain ⟨rfl, rfl⟩ := h
    refine ⟨by omega, rfl, fun x _ => ?_⟩
    show (TVal.tot (.ten (some _)) [x] : ℂ) = _
    rw [TVal.tot]
    simp

theorem ghzOps_sound (m n : Nat) : ∀ x ∈ ghzOps m, Sound ctr (n + 1) x.1 := by
  intro x hx
  have hb := ghzOps_built (ctr := ctr) m n x hx
  rcases mem_ghzOps hx with ⟨q, rfl⟩ | rfl | ⟨q, hq, rfl⟩
  · unfold zeroState at hb ⊢
    rw [Built] at hb
    rw [Sound]
    refine ⟨hb.1, fun p' e => ?_⟩
    cases e
    refine ⟨zeroMeas_ok, rfl, fun x y hx hy hxb hyb => ?_⟩
    match x, hx with
    | [], _ =>
      match y, hy with
      | [b], _ =>
        show (TVal.tot (.ten (some _)) [b] : ℂ) = star (TVal.tot (.ten (some _)) [b])
        rw [TVal.tot]
        by_cases h : b = 0 <;> simp [h]
  · unfold hGateOp at hb ⊢
    rw [Built] at hb
    rw [Sound]
    exact ⟨hb.1, fun p' e => by cases e⟩
  · unfold cnotOp at hb ⊢
    rw [Built] at hb
    rw [Sound]
    exact ⟨hb.1, fun p' e => by cases e⟩

theorem ghzOps_adjoint (m n k : Nat) : ∀ x ∈ ghzOps m, DensBuilt ctr k (n + 1) (adjD (adjoint ctr (n + 1)) x.1) := by
  intro x hx
  have hb := ghzOps_dens (ctr := ctr) m n k x hx
  rcases mem_ghzOps hx with ⟨q, rfl⟩ | rfl | ⟨q, hq, rfl⟩
  · show DensBuilt ctr k (n + 1) (.pure zeroMeasRec (some zeroStateRec))
    rw [DensBuilt, Built]
    exact ⟨⟨zeroMeas_ok, fun h => by cases h⟩, TVal.flat_ten _ _⟩
  · exact hb
  · exact hb

theorem ghz_sound (m k : Nat) : Sound ctr (k + 2) (.circ (seqFrom 0 (ghzOps m))) := by
  rw [Sound]
  refine ⟨seqFrom_keys _ 0, (c63_valid (ghzOps_appendable m k)).2 fun q => (ghzOps_word m k q).1, fun p hp => ?_, ?_⟩
  · have hm := (mem_seqFrom hp).1
    obtain ⟨s, h1, h2, h3⟩ := ghzOps_appendable (ctr := ctr) m k _ hm
    exact ⟨ghzOps_sound m k _ hm, h3, s, h1, h2⟩
  · have : ((seqFrom 0 (ghzOps m)).filter fun p => p.2.qubits = []) = [] := by
      rw [List.filter_eq_nil_iff]
      intro p hp
      have hm := (mem_seqFrom hp).1
      rcases mem_ghzOps hm with ⟨q, e⟩ | e | ⟨q, hq, e⟩ <;> · rw [Prod.mk.injEq] at e; simp [e.2]
    rw [this]
    exact List.Pairwise.nil

/-- **C64**: the number printed by the example, for any state `b` on the qubits of the GHZ state (in the example the same circuit with noise): the
four corners of its density matrix, halved. -/
theorem c64_fidelity_partial (hctr : Evaluates ctr) (hG : G.Sound) {m n k K : Nat} {b : Circ (Oper ℂ)} (hb : DensBuilt ctr k (n + 2) (.circ b))
    (hst : Stamped b) (hib : circIns (shapes ctr (n + 1)) b = []) (ho : circOuts (shapes ctr (n + 1)) b = (List.range (m + 1)).map fun i : Nat => (i : Int))
    (hK : n + 3 + k ≤ K) :
    ∃ a a' c r d, ghzState (shapes ctr (n + 1)) (m + 1) = .ok a ∧ adjoint ctr (n + 2) (.circ a) = .ok a' ∧
      orOper (shapes ctr (n + 2)) (.circ b) a' = .ok c ∧ density ctr G K (n + 2) (.circ b) = .ok r ∧
      density ctr G K (n + 3) (.circ c) = .ok d ∧ d.shape = some [] ∧
      d.tot [] = (1 / 2 : ℂ) * (r.tot (List.replicate (m + 1) 0 ++ List.replicate (m + 1) 0) + r.tot (List.replicate (m + 1) 0 ++ List.replicate (m + 1) 1) +
        r.tot (List.replicate (m + 1) 1 ++ List.replicate (m + 1) 0) + r.tot (List.replicate (m + 1) 1 ++ List.replicate (m + 1) 1)) := by
  obtain ⟨a, t, h1, h2, h3, h4, h5⟩ := c64_entries hctr m n
  have ea : a = seqFrom 0 (ghzOps m) := by
    rw [ghzState_eq, Nat.add_sub_cancel, c63_append _ (ghzOps_appendable m n)] at h1
    cases h1; rfl
  subst ea
  have hi : circIns (shapes ctr (n + 1)) (seqFrom 0 (ghzOps m)) = [] :=
    (seqFrom_ins _).unique (ghz_ins m n)
  have ho' : circOuts (shapes ctr (n + 1)) (seqFrom 0 (ghzOps m)) = (List.range (m + 1)).map fun i : Nat => (i : Int) :=
    (seqFrom_outs _).unique (ghz_outs m n)
  obtain ⟨a', c, t', r, d, k1, k2, k3, k4, k5, k6, k7⟩ := c65_overlap_partial hctr hG (k := k) (K := K) (ghz_sound m n) (fun op hop => by
      obtain ⟨c', s, j1, j2, -, j4, j5, -⟩ := circ_adjoint (ghz_sound (ctr := ctr) m n)
      rw [j1] at hop
      cases hop
      rw [Sound] at j2
      rw [DensBuilt]
      refine ⟨j2.1, j2.2.1, fun p hp => ⟨?_, (j2.2.2.1 p hp).2⟩⟩
      rw [j5] at hp
      obtain ⟨p0, hp0, rfl⟩ := List.mem_map.1 hp
      exact ghzOps_adjoint m n k _ (mem_seqFrom hp0).1) hb hst hi hib (ho'.trans ho.symm) hK
  rw [h2] at k3
  cases k3
  refine ⟨_, a', c, r, d, h1, k1, k2, k4, k5, k6, ?_⟩
  have bz : ∀ b, b < 2 → Bits (List.replicate (m + 1) b) (m + 1) := fun b hb => ⟨by simp, fun a ha => by rw [List.eq_of_mem_replicate ha]; exact hb⟩
  have hne : List.replicate (m + 1) 0 ≠ List.replicate (m + 1) 1 := by simp [List.replicate_succ]
  have hh : (Real.sqrt 0.5 : ℂ) * (Real.sqrt 0.5 : ℂ) = 1 / 2 := by
    rw [← Complex.ofReal_mul, Real.mul_self_sqrt (by norm_num)]
    norm_num
  rw [k7, ho', List.length_map, List.length_range,
    sumIdx_two (bz 0 (by omega)) (bz 1 (by omega)) hne (fun w hw w0 w1 => by
      rw [h5 w hw w0 w1]
      simp only [star_zero, zero_mul]
      exact sumIdx_zero _)]
  rw [sumIdx_two (bz 0 (by omega)) (bz 1 (by omega)) hne (fun w hw w0 w1 => by rw [h5 w hw w0 w1]; ring),
    sumIdx_two (bz 0 (by omega)) (bz 1 (by omega)) hne (fun w hw w0 w1 => by rw [h5 w hw w0 w1]; ring)]
  rw [h3, h4, half_real, hh]
  ring

theorem ghz_dens (m n k : Nat) : DensBuilt ctr k (n + 2) (.circ (seqFrom 0 (ghzOps m))) := by
  have h := ghz_sound (ctr := ctr) m n
  rw [Sound] at h
  rw [DensBuilt]
  exact ⟨h.1, h.2.1, fun p hp => ⟨ghzOps_dens m n k _ (mem_seqFrom hp).1, (h.2.2.1 p hp).2⟩⟩

theorem ghz_stamped (m : Nat) : Stamped (seqFrom 0 (ghzOps m)) := by
  intro n r h t qs e
  obtain ⟨-, -, -, h4⟩ := mem_seqFrom h
  exact (autoName_time (e.symm.trans h4))

/-- **C64**: without noise the example gives 1. -/
theorem c64_self (hctr : Evaluates ctr) (hG : G.Sound) {m n k K : Nat} (hK : n + 3 + k ≤ K) :
    ∃ a a' c d, ghzState (shapes ctr (n + 1)) (m + 1) = .ok a ∧ adjoint ctr (n + 2) (.circ a) = .ok a' ∧
      orOper (shapes ctr (n + 2)) (.circ a) a' = .ok c ∧ density ctr G K (n + 3) (.circ c) = .ok d ∧ d.shape = some [] ∧ d.tot [] = 1 := by
  have hi : circIns (shapes ctr (n + 1)) (seqFrom 0 (ghzOps m)) = [] := (seqFrom_ins _).unique (ghz_ins m n)
  have ho' : circOuts (shapes ctr (n + 1)) (seqFrom 0 (ghzOps m)) = (List.range (m + 1)).map fun i : Nat => (i : Int) :=
    (seqFrom_outs _).unique (ghz_outs m n)
  obtain ⟨a, a', c, r, d, k1, k2, k3, k4, k5, k6, k7⟩ := c64_fidelity_partial hctr hG (k := k) (K := K) (ghz_dens m n k) (ghz_stamped m) hi ho' hK
  obtain ⟨a1, t, h1, h2, h3, h4, -⟩ := c64_entries hctr m n
  rw [k1] at h1
  cases h1
  have ea : a = seqFrom 0 (ghzOps m) := by
    rw [ghzState_eq, Nat.add_sub_cancel, c63_append _ (ghzOps_appendable m n)] at k1
    cases k1; rfl
  subst ea
  obtain ⟨s, t', d', p1, p2, p3, -, -, p6⟩ := c48_pure hctr hG (ghz_dens (ctr := ctr) m n k) (K := K) (by omega) (built_of_sound _ (ghz_sound m n))
  rw [h2] at p2
  cases p2
  rw [k4] at p3
  cases p3
  have fa : Fitting (shapes ctr (n + 1)) (seqFrom 0 (ghzOps m)) := seqFrom_fits (ghzOps_appendable m n) 0
  have lo : (outPlaces s).length + (inPlaces s).length = m + 1 := by
    have p1 : Circ.shape (shapes ctr (n + 1)) (seqFrom 0 (ghzOps m)) = .ok s := p1
    rw [outs_length fa p1, ins_length fa p1, hi, ho']
    simp
  rw [lo] at p6
  have bz : ∀ b, b < 2 → Bits (List.replicate (m + 1) b) (m + 1) := fun b hb => ⟨by simp, fun a ha => by rw [List.eq_of_mem_replicate ha]; exact hb⟩
  have hh : (Real.sqrt 0.5 : ℂ) * (Real.sqrt 0.5 : ℂ) = 1 / 2 := by
    rw [← Complex.ofReal_mul, Real.mul_self_sqrt (by norm_num)]
    norm_num
  refine ⟨_, a', c, d, k1, k2, k3, k5, k6, ?_⟩
  rw [k7, p6 _ _ (bz 0 (by omega)) (bz 0 (by omega)), p6 _ _ (bz 0 (by omega)) (bz 1 (by omega)), p6 _ _ (bz 1 (by omega)) (bz 0 (by omega)),
    p6 _ _ (bz 1 (by omega)) (bz 1 (by omega)), h3, h4, half_real, hh]
  norm_num

/-- **C64**: the example as a whole, with any channel on one qubit as noise: nothing raises, and the number is the four corners, halved, of the
density matrix got by applying the operations of the GHZ state one after the other, each followed by the channel on each of its qubits. -/
theorem c64_noise (hctr : Evaluates ctr) (hG : G.Sound) {m n k K : Nat} {noise : Oper ℂ} (hnd : DensBuilt ctr k (n + 1) noise)
    (hns : shapes ctr (n + 1) noise = .ok [[.i, .o]]) (hK : n + 4 + k ≤ K) :
    ∃ a b a' c d, ghzState (shapes ctr (n + 1)) (m + 1) = .ok a ∧ addNoise ctr (n + 1) noise a = .ok b ∧
      adjoint ctr (n + 3) (.circ a) = .ok a' ∧ orOper (shapes ctr (n + 3)) (.circ b) a' = .ok c ∧
      density ctr G K (n + 4) (.circ c) = .ok d ∧ d.shape = some [] ∧
      d.tot [] = (1 / 2 : ℂ) * ((fun ρ : (Int → Nat) → (Int → Nat) → ℂ => ρ (fun _ => 0) (fun _ => 0) + ρ (fun _ => 0) (fun _ => 1) +
          ρ (fun _ => 1) (fun _ => 0) + ρ (fun _ => 1) (fun _ => 1))
        (evolveDens (noisySeq (densMatrix ctr (n + 1) noise) ((ghzOps m).map fun x => ⟨densMatrix ctr (n + 1) x.1,
          inQubits (shapeD (shapes ctr (n + 1)) x.1) x.2, outQubits (shapeD (shapes ctr (n + 1)) x.1) x.2⟩)) fun _ _ => 1)) := by
  have hi : circIns (shapes ctr (n + 1)) (seqFrom 0 (ghzOps m)) = [] := (seqFrom_ins _).unique (ghz_ins m n)
  have ho' : circOuts (shapes ctr (n + 1)) (seqFrom 0 (ghzOps m)) = (List.range (m + 1)).map fun i : Nat => (i : Int) :=
    (seqFrom_outs _).unique (ghz_outs m n)
  obtain ⟨b, h1, h2, h3, h4, h5, h6⟩ := c52_add_noise_partial (l := [.i, .o]) (ghz_dens m n k) (fun p hp => by
    have hm := (mem_seqFrom hp).1
    rcases mem_ghzOps hm with ⟨q, e⟩ | e | ⟨q, hq, e⟩ <;> · rw [Prod.mk.injEq] at e; rw [e.1]; trivial) hnd hns rfl
  have hst : Stamped b := by
    intro nm r hr t qs e
    have hm : (nm, r.time, r.qubits) ∈ b.map (fun p => (p.1, p.2.time, p.2.qubits)) := List.mem_map.2 ⟨_, hr, rfl⟩
    rw [h2] at hm
    obtain ⟨p, hp, he⟩ := List.mem_map.1 hm
    simp only [Prod.mk.injEq] at he
    rw [← he.2.1]
    exact ghz_stamped m p.1 p.2 hp t qs (he.1.trans e)
  obtain ⟨a, a', c, r, d, k1, k2, k3, k4, k5, k6, k7⟩ := c64_fidelity_partial hctr hG (m := m) (n := n + 1) (k := k) (K := K) h3 hst (h5.trans hi) (h4.trans ho') hK
  have ea : a = seqFrom 0 (ghzOps m) := by
    rw [ghzState_eq, Nat.add_sub_cancel, c63_append _ (ghzOps_appendable m (n + 1))] at k1
    cases k1; rfl
  subst ea
  refine ⟨_, b, a', c, d, by rw [ghzState_eq, Nat.add_sub_cancel]; exact c63_append _ (ghzOps_appendable m n), h1, k2, k3, k5, k6, ?_⟩
  obtain ⟨s, r', q1, q2, -, q4⟩ := c47_operation hctr hG h3 (K := K) (by omega)
  rw [k4] at q2
  cases q2
  have q1 : Circ.shape (shapes ctr (n + 2)) b = .ok s := q1
  have fb : Fitting (shapes ctr (n + 2)) b := by
    have := allValid_dens _ h3
    rw [AllValid] at this; exact fitting_of this.2
  have lo : (outPlaces s).length = m + 1 := by rw [outs_length fb q1, h4, ho']; simp
  have li : (inPlaces s).length = 0 := by rw [ins_length fb q1, h5, hi]; rfl
  rw [lo, li, Nat.add_zero, two_mul] at q4
  have bz : ∀ b, b < 2 → Bits (List.replicate (m + 1) b) (m + 1) := fun b hb => ⟨by simp, fun a ha => by rw [List.eq_of_mem_replicate ha]; exact hb⟩
  have key : ∀ x y, x < 2 → y < 2 → r.tot (List.replicate (m + 1) x ++ List.replicate (m + 1) y) =
      evolveDens (noisySeq (densMatrix ctr (n + 1) noise) ((ghzOps m).map fun x => ⟨densMatrix ctr (n + 1) x.1,
          inQubits (shapeD (shapes ctr (n + 1)) x.1) x.2, outQubits (shapeD (shapes ctr (n + 1)) x.1) x.2⟩)) (fun _ _ => 1) (fun _ => x) (fun _ => y) := by
    intro x y hx hy
    rw [q4 _ ((bz x hx).append (bz y hy))]
    have := h6 (fun _ => x) (fun _ => 0) (fun _ => y) (fun _ => 0) (fun _ => hx) (fun _ => hy)
    rw [hi, ho', seqFrom_sorted, seqFrom_acts] at this
    have eb : basisDens (R := ℂ) [] (fun _ => 0) (fun _ => 0) = fun _ _ => 1 := by
      funext w w'
      simp [basisDens]
    rw [eb] at this
    rw [← this]
    congr 1
    simp [List.map_const', Function.comp_def]
  rw [k7, key 0 0 (by omega) (by omega), key 0 1 (by omega) (by omega), key 1 0 (by omega) (by omega), key 1 1 (by omega) (by omega)]

/-- The hypotheses of `c64_noise` (so those of `c64_fidelity_partial` and `c65_overlap_partial`) are met: ten qubits, the channel that does nothing. -/
example : ∃ a b a' c d, ghzState (shapes evalAll 1) 10 = .ok a ∧
    addNoise evalAll 1 (.imm (.ten (some ⟨[2, 2, 2, 2], fun l => if l = [0, 0, 0, 0] ∨ l = [1, 1, 1, 1] ∨ l = [0, 0, 1, 1] ∨ l = [1, 1, 0, 0] then 1 else 0⟩)) [[.i, .o]]) a = .ok b ∧
    adjoint evalAll 3 (.circ a) = .ok a' ∧ orOper (shapes evalAll 3) (.circ b) a' = .ok c ∧ density evalAll stdGlue 4 4 (.circ c) = .ok d := by
  obtain ⟨a, b, a', c, d, h1, h2, h3, h4, h5, -⟩ := c64_noise (ctr := evalAll) evalAll_evaluates stdGlue_sound (m := 9) (n := 0) (k := 0) (K := 4)
    (noise := .imm (.ten (some ⟨[2, 2, 2, 2], fun l => if l = [0, 0, 0, 0] ∨ l = [1, 1, 1, 1] ∨ l = [0, 0, 1, 1] ∨ l = [1, 1, 0, 0] then 1 else 0⟩)) [[.i, .o]])
    (by rw [DensBuilt]; rfl) rfl (by omega)
  exact ⟨a, b, a', c, d, h1, h2, h3, h4, h5⟩

end Oper

end Verif
