import Verif.Lemmas.Convert
/-!
# The loop of `convert_pure` over the gates
-/

set_option linter.unusedSectionVars false

namespace Verif

variable {R : Type} [CommSemiring R]

/-! ### Words along a wire -/

theorem portsAt_nil {s : List (List Letter)} {qs : List Int} {q : Int} (h : q ∉ qs) : portsAt s qs q = [] := by
  unfold portsAt
  rw [List.filter_eq_nil_iff.2, List.flatMap_nil]
  intro p hp
  have := List.of_mem_zip hp
  simp only [decide_eq_true_eq]
  rintro rfl
  exact h this.1

theorem mem_inQubits {s : List (List Letter)} {qs : List Int} {q : Int} :
    q ∈ inQubits s qs ↔ (portsAt s qs q).head? = some .inp := by
  unfold inQubits
  rw [List.mem_filter, decide_eq_true_eq]
  refine ⟨fun h => h.2, fun h => ⟨?_, h⟩⟩
  by_contra hq
  rw [portsAt_nil hq] at h
  cases h

theorem mem_outQubits {s : List (List Letter)} {qs : List Int} {q : Int} :
    q ∈ outQubits s qs ↔ (portsAt s qs q).getLast? = some .out := by
  unfold outQubits
  rw [List.mem_filter, decide_eq_true_eq]
  refine ⟨fun h => h.2, fun h => ⟨?_, h⟩⟩
  by_contra hq
  rw [portsAt_nil hq] at h
  cases h

theorem chain_cut {l l' : List Port} (h : (l ++ l').IsChain (· ≠ ·)) {x y : Port} (hx : l.getLast? = some x)
    (hy : l'.head? = some y) : x ≠ y :=
  (List.isChain_append.1 h).2.2 x hx y hy

namespace Circ

variable {α τ : Type} [HasShape τ] {sh : ShapeFn α}

theorem wireWord_cons (q : Int) (p : Nm × OpRec α) (l : Circ α) :
    wireWord sh q (p :: l) = portsAt (shapeD sh p.2.op) p.2.qubits q ++ wireWord sh q l := rfl

theorem wireWord_touch (q : Int) (l : Circ α) : wireWord sh q (touch q l) = wireWord sh q l := by
  induction l with
  | nil => rfl
  | cons p l ih =>
    rw [touch_cons, wireWord_cons]
    split
    · rw [wireWord_cons, ih]
    · next h => rw [portsAt_nil h, ih, List.nil_append]

/-- Every wire of the circuit `l`, listed in time order, can be connected. -/
structure Wired (sh : ShapeFn α) (l : Circ α) : Prop where
  times : ∀ q, (touch q l).Pairwise fun p p' => p.2.time < p'.2.time
  chain : ∀ q, Connectable (wireWord sh q l)

theorem Wired.suffix {l l' : Circ α} (h : Wired sh (l ++ l')) : Wired sh l' := by
  refine ⟨fun q => ?_, fun q => ?_⟩
  · have := h.times q
    unfold touch at this
    rw [List.filter_append] at this
    exact (List.pairwise_append.1 this).2.1
  · have := h.chain q
    unfold Connectable wireWord at this
    rw [List.flatMap_append] at this
    exact (List.isChain_append.1 this).2.1

/-- The edges known to the converter. -/
def Known (F : Front Nm R) (e : Nm) : Prop := e ∈ F.closed ∨ (∃ q ∈ F.live, e = F.dic q) ∨ ∃ q ∈ F.ends, e = F.dout q

/-- What the abstract state says about the operations read; `wq` and `wt` give the qubit and the time in the name of an
edge. -/
structure HistOf (wq wt : Nm → Int) (sh : ShapeFn α) (F : Front Nm R) (S : Circ α) : Prop where
  live : ∀ q, q ∈ F.live ↔ (wireWord sh q S).head? = some .inp
  ends : ∀ q, q ∈ F.ends ↔ (wireWord sh q S).getLast? = some .out
  old : ∀ e, Known F e → wireWord sh (wq e) S ≠ [] ∧ ∃ p ∈ S, wq e ∈ p.2.qubits ∧ p.2.time ≤ wt e
  legs : ∀ e, Known F e → ∃ f ∈ F.fs, e ∈ f.legs

/-- The same for the edges `(time, idx, q)`. -/
abbrev Hist (sh : ShapeFn α) (F : Front Nm R) (S : Circ α) : Prop := HistOf wireQubit wireTime sh F S

/-- Names of the edges of an operation at time `t`. -/
structure Names (wq wt : Nm → Int) (t : Int) (en eo : Int → Nm) : Prop where
  en_q : ∀ q, wq (en q) = q
  eo_q : ∀ q, wq (eo q) = q
  en_t : ∀ q, wt (en q) = t
  eo_t : ∀ q, wt (eo q) = t + 1

theorem names_wire (t : Int) (idx : Nat) : Names wireQubit wireTime t (wireName t idx) (wireName (t + 1) idx) :=
  ⟨fun _ => rfl, fun _ => rfl, fun _ => rfl, fun _ => rfl⟩

/-- The abstract state after one more operation. -/
def stepFront (sh : ShapeFn α) (ten : α → List Nat → R) (F : Front Nm R) (idx : Nat) (r : OpRec α) : Front Nm R :=
  F.step (actOf sh ten r) (wireName r.time idx) (wireName (r.time + 1) idx)

theorem inQubits_nodup {s : List (List Letter)} {qs : List Int} (h : qs.Nodup) : (inQubits s qs).Nodup := h.filter _
theorem outQubits_nodup {s : List (List Letter)} {qs : List Int} (h : qs.Nodup) : (outQubits s qs).Nodup := h.filter _

section Step

variable {ten : α → List Nat → R} {F : Front Nm R} {S : Circ α} {n : Nm} {r : OpRec α} {idx : Nat}
  {wq wt : Nm → Int} {en eo : Int → Nm}

theorem HistOf.fits (h : HistOf wq wt sh F S) (he : Names wq wt r.time en eo) (hw : Wired sh ((n, r) :: S))
    (hn : r.qubits.Nodup) :
    F.Fits wq (fun q => (wireWord sh q S).head? = some .out) (actOf sh ten r) en eo := by
  have hin : ∀ q, q ∈ (actOf sh ten r).ins ↔ (portsAt (shapeD sh r.op) r.qubits q).head? = some .inp := fun q => mem_inQubits
  have hout : ∀ q, q ∈ (actOf sh ten r).outs ↔ (portsAt (shapeD sh r.op) r.qubits q).getLast? = some .out :=
    fun q => mem_outQubits
  have hch : ∀ q, (portsAt (shapeD sh r.op) r.qubits q ++ wireWord sh q S).IsChain (· ≠ ·) := fun q => hw.chain q
  have hqin : ∀ q ∈ (actOf sh ten r).ins, q ∈ r.qubits := fun q hq => (List.mem_filter.1 hq).1
  have htime : ∀ q ∈ r.qubits, ∀ p ∈ S, q ∈ p.2.qubits → r.time < p.2.time := fun q hq p hp hqp => by
    have := hw.times q
    rw [touch_cons, if_pos hq] at this
    exact (List.pairwise_cons.1 this).1 p (List.mem_filter.2 ⟨hp, decide_eq_true hqp⟩)
  have hnew : ∀ q ∈ (actOf sh ten r).ins, ¬ Known F (en q) := fun q hq hk => by
    obtain ⟨-, p, hp, hqp, ht⟩ := h.old _ hk
    rw [he.en_q] at hqp
    have := htime q (hqin q hq) p hp hqp
    rw [he.en_t] at ht
    omega
  have hempty : ∀ q ∈ (actOf sh ten r).outs, q ∉ F.live → wireWord sh q S = [] := fun q hq hl => by
    cases hwd : wireWord sh q S with
    | nil => rfl
    | cons x w =>
      exfalso
      have h1 : (wireWord sh q S).head? = some x := by rw [hwd]; rfl
      have h2 := chain_cut (hch q) ((hout q).1 hq) h1
      cases x with
      | inp => exact hl ((h.live q).2 h1)
      | out => exact h2 rfl
  refine ⟨inQubits_nodup hn, outQubits_nodup hn, fun q _ => he.en_q q, fun q _ => he.eo_q q, ?_, ?_, ?_, ?_, ?_, ?_, ?_, ?_⟩
  · intro q hi ho hl
    have h1 := (hin q).1 hi
    cases hlast : (portsAt (shapeD sh r.op) r.qubits q).getLast? with
    | none => rw [List.getLast?_eq_none_iff] at hlast; rw [hlast] at h1; cases h1
    | some x =>
      cases x with
      | out => exact ho ((hout q).2 hlast)
      | inp => exact chain_cut (hch q) hlast ((h.live q).1 hl) rfl
  · intro q ho hb
    exact chain_cut (hch q) ((hout q).1 ho) hb rfl
  · intro q ho hl hm
    have := (h.ends q).1 hm
    rw [hempty q ho hl] at this
    cases this
  · exact fun q hq hc => hnew q hq (Or.inl hc)
  · exact fun q hq hl he => hnew q hq (Or.inr (Or.inl ⟨q, hl, he⟩))
  · exact fun q hq hl he => hnew q hq (Or.inr (Or.inr ⟨q, hl, he⟩))
  · intro q _ _ _ hne
    have := congrArg wt hne
    rw [he.en_t, he.eo_t] at this
    omega
  · intro q ho hl hc
    have := (h.old _ (Or.inl hc)).1
    rw [he.eo_q] at this
    exact this (hempty q ho hl)

theorem known_step {p : Act R} {en eo : Int → Nm} {e : Nm} (hk : Known (F.step p en eo) e) :
    Known F e ∨ (∃ q ∈ p.ins, e = en q) ∨ ∃ q ∈ p.outs, q ∉ F.live ∧ e = eo q := by
  rcases hk with hk | ⟨q, hq, rfl⟩ | ⟨q, hq, rfl⟩
  · simp only [Front.step, List.mem_append, List.mem_map, List.mem_filter] at hk
    rcases hk with ⟨q, ⟨hq, -⟩, rfl⟩ | hk
    · exact Or.inl (Or.inr (Or.inl ⟨q, hq, rfl⟩))
    · exact Or.inl (Or.inl hk)
  · simp only [Front.step, List.mem_append, List.mem_filter] at hq ⊢
    by_cases hi : q ∈ p.ins
    · rw [if_pos hi]; exact Or.inr (Or.inl ⟨q, hi, rfl⟩)
    · rw [if_neg hi]; exact Or.inl (Or.inr (Or.inl ⟨q, (hq.resolve_right hi).1, rfl⟩))
  · simp only [Front.step, List.mem_append, List.mem_filter, decide_eq_true_eq] at hq ⊢
    by_cases hi : q ∈ p.outs ∧ q ∉ F.live
    · rw [if_pos hi]; exact Or.inr (Or.inr ⟨q, hi.1, hi.2, rfl⟩)
    · rw [if_neg hi]; exact Or.inl (Or.inr (Or.inr ⟨q, hq.resolve_left hi, rfl⟩))

theorem HistOf.step (h : HistOf wq wt sh F S) (hnm : Names wq wt r.time en eo) (hw : Wired sh ((n, r) :: S))
    (hn : r.qubits.Nodup) : HistOf wq wt sh (F.step (actOf sh ten r) en eo) ((n, r) :: S) := by
  have hf := h.fits (ten := ten) hnm hw hn
  have hin : ∀ q, q ∈ (actOf sh ten r).ins ↔ (portsAt (shapeD sh r.op) r.qubits q).head? = some .inp := fun q => mem_inQubits
  have hout : ∀ q, q ∈ (actOf sh ten r).outs ↔ (portsAt (shapeD sh r.op) r.qubits q).getLast? = some .out :=
    fun q => mem_outQubits
  have hww : ∀ q, wireWord sh q ((n, r) :: S) = portsAt (shapeD sh r.op) r.qubits q ++ wireWord sh q S := fun q => rfl
  have hch : ∀ q, (portsAt (shapeD sh r.op) r.qubits q ++ wireWord sh q S).IsChain (· ≠ ·) := fun q => hw.chain q
  refine ⟨fun q => ?_, fun q => ?_, fun e he => ?_, fun e he => ?_⟩
  · have : q ∈ (F.step (actOf sh ten r) en eo).live ↔ (q ∈ F.live ∧ q ∉ (actOf sh ten r).outs) ∨ q ∈ (actOf sh ten r).ins := by
      simp [Front.step]
    rw [this, hww, hin, hout, h.live]
    cases hp : portsAt (shapeD sh r.op) r.qubits q with
    | nil => simp
    | cons x w =>
      rw [List.cons_append, List.head?_cons]
      refine ⟨fun hh => hh.elim (fun hh => ?_) id, Or.inr⟩
      exfalso
      cases hlast : (x :: w).getLast? with
      | none => simp at hlast
      | some y =>
        cases y with
        | out => exact hh.2 hlast
        | inp => exact chain_cut (hch q) (by rw [hp]; exact hlast) hh.1 rfl
  · have : q ∈ (F.step (actOf sh ten r) en eo).ends ↔ (q ∈ (actOf sh ten r).outs ∧ q ∉ F.live) ∨ q ∈ F.ends := by
      simp [Front.step]
    rw [this, hww, h.ends, List.getLast?_append]
    cases hl : (wireWord sh q S).getLast? with
    | none =>
      rw [List.getLast?_eq_none_iff] at hl
      rw [hout, h.live, hl]
      simp
    | some y =>
      simp only [Option.some_or]
      refine ⟨fun hh => hh.elim (fun hh => ?_) id, Or.inr⟩
      exfalso
      cases hwd : wireWord sh q S with
      | nil => rw [hwd] at hl; cases hl
      | cons x w =>
        have h1 : (wireWord sh q S).head? = some x := by rw [hwd]; rfl
        cases x with
        | inp => exact hh.2 ((h.live q).2 h1)
        | out => exact chain_cut (hch q) ((hout q).1 hh.1) h1 rfl
  · rcases known_step he with he | ⟨q, hq, rfl⟩ | ⟨q, hq, -, rfl⟩
    · obtain ⟨h1, p, h2, h3⟩ := h.old e he
      exact ⟨by rw [hww]; simp [h1], p, by simp [h2], h3⟩
    · refine ⟨?_, (n, r), by simp, by rw [hnm.en_q]; exact (List.mem_filter.1 hq).1, by rw [hnm.en_t]⟩
      rw [hww, hnm.en_q]
      intro hc
      have := (hin q).1 hq
      rw [(List.append_eq_nil_iff.1 hc).1] at this
      cases this
    · refine ⟨?_, (n, r), by simp, by rw [hnm.eo_q]; exact (List.mem_filter.1 hq).1, by rw [hnm.eo_t]; simp⟩
      rw [hww, hnm.eo_q]
      intro hc
      have := (hout q).1 hq
      rw [(List.append_eq_nil_iff.1 hc).1] at this
      cases this
  · rcases known_step he with he | ⟨q, hq, rfl⟩ | ⟨q, hq, hl, rfl⟩
    · obtain ⟨f, h1, h2⟩ := h.legs e he
      exact ⟨f, List.mem_cons_of_mem _ h1, h2⟩
    · refine ⟨_, List.mem_cons_self, List.mem_append_right _ (List.mem_map.2 ⟨q, hq, rfl⟩)⟩
    · refine ⟨_, List.mem_cons_self, List.mem_append_left _ (List.mem_map.2 ⟨q, hq, ?_⟩)⟩
      rw [Front.outEdge, if_neg hl]

theorem Computes_step (h : HistOf wq wt sh F S) (hnm : Names wq wt r.time en eo) (hok : F.OK wq)
    (hw : Wired sh ((n, r) :: S)) (hn : r.qubits.Nodup)
    (hc : F.Computes wq (fun q => (wireWord sh q S).head? = some .out) (S.map fun p => actOf sh ten p.2)) :
    (F.step (actOf sh ten r) en eo).Computes wq (fun q => (wireWord sh q ((n, r) :: S)).head? = some .out)
      (((n, r) :: S).map fun p => actOf sh ten p.2) := by
  have hf := h.fits (ten := ten) hnm hw hn
  have h1 := hc.step hok hf
  intro Ψ hΨ u
  refine h1 Ψ (hΨ.mono fun q hq => ?_) u
  have hin : q ∈ (actOf sh ten r).ins ↔ (portsAt (shapeD sh r.op) r.qubits q).head? = some .inp := mem_inQubits
  have hout : q ∈ (actOf sh ten r).outs ↔ (portsAt (shapeD sh r.op) r.qubits q).getLast? = some .out := mem_outQubits
  show (portsAt (shapeD sh r.op) r.qubits q ++ wireWord sh q S).head? = some .out
  rw [hin, hout] at hq
  cases hp : portsAt (shapeD sh r.op) r.qubits q with
  | nil => rw [hp] at hq; simpa using hq.2
  | cons x w =>
    rw [hp] at hq
    cases x with
    | inp => simp at hq
    | out => rfl

end Step

/-! ### The concrete state -/

/-- The local variables represent the abstract state. -/
structure Rel (val : τ → List Nat → R) (s : Conv τ) (F : Front Nm R) : Prop where
  draws : Draws val s.tn F.fs
  all : ∀ e, e ∈ s.all ↔ e ∈ s.tn.edges.keys
  din : s.dicIn = s.dic
  dic_nodup : s.dic.keys.Nodup
  dout_nodup : s.dicOut.keys.Nodup
  dic : ∀ q, s.dic.get? q = if q ∈ F.live then some (F.dic q) else none
  dout : ∀ q, s.dicOut.get? q = if q ∈ F.ends then some (F.dout q) else none

variable {I : OpsIface α τ} {val : τ → List Nat → R} {ten : α → List Nat → R}

/-- What is needed of an operation in a circuit. -/
def Convertible (I : OpsIface α τ) (val : τ → List Nat → R) (ten : α → List Nat → R) (r : OpRec α) : Prop :=
  ∃ s, I.shape r.op = .ok s ∧ s.length = r.qubits.length ∧ r.qubits.Nodup ∧
    Drawable I val ten r.op (outQubits s r.qubits).length (inQubits s r.qubits).length

theorem Rel.step {s : Conv τ} {F : Front Nm R} {S : Circ α} {n : Nm} {r : OpRec α} {idx : Nat} (h : Rel val s F)
    (hh : Hist I.shape F S) (hw : Wired I.shape ((n, r) :: S)) (hc : Convertible I val ten r) (hg : n ∉ s.tn.nodes.keys) :
    ∃ s', convGate I r.time idx n r s = .ok s' ∧ Rel val s' (stepFront I.shape ten F idx r) ∧
      ∀ m ∈ s'.tn.nodes.keys, m = n ∨ m ∈ s.tn.nodes.keys := by
  obtain ⟨l, hl, hlen, hn, hd⟩ := hc
  have hsd : shapeD I.shape r.op = l := by simp [shapeD, hl]
  have hf := hh.fits (ten := ten) (names_wire r.time idx) hw hn
  have hO : ((r.qubits.zip l).filter fun p => Letter.endsOut p.2).map Prod.fst = outQubits l r.qubits :=
    filter_ports hlen hn _ (fun w => w.getLast? = some .out) fun w => by
      rw [Bool.eq_iff_iff, endsOut_iff, decide_eq_true_eq]
  have hI : ((r.qubits.zip l).filter fun p => Letter.startsIn p.2).map Prod.fst = inQubits l r.qubits :=
    filter_ports hlen hn _ (fun w => w.head? = some .inp) fun w => by
      rw [Bool.eq_iff_iff, startsIn_iff, decide_eq_true_eq]
  have hgetO := indicesWith_get hlen Letter.endsOut
  have hgetI := indicesWith_get hlen Letter.startsIn
  rw [hO] at hgetO
  rw [hI] at hgetI
  obtain ⟨s1, a1, a2, a3, a4, a5, a6, a7, a8⟩ := convOuts_spec (t := r.time) (idx := idx) hgetO (outQubits_nodup hn) s h.din
    h.dic_nodup h.dout_nodup
  obtain ⟨s2, b1, b2, b3, b4, b5, b6, b7⟩ := convIns_spec (t := r.time) (idx := idx) hgetI s1 a2 a3
  have hall2 : ∀ e, e ∈ s2.all ↔ e ∈ s2.tn.edges.keys := by rw [b6, a6, b5, a5]; exact h.all
  have htn2 : s2.tn = s.tn := by rw [b5, a5]
  have houts : (outQubits l r.qubits).map (fun q => (s.dic.get? q).getD (wireName (r.time + 1) idx q)) =
      (outQubits l r.qubits).map (F.outEdge (wireName (r.time + 1) idx)) := by
    refine List.map_congr_left fun q _ => ?_
    rw [h.dic q, Front.outEdge]
    split <;> rfl
  rw [houts] at a1
  obtain ⟨E', A, c1, c2, c3, c4⟩ := convEdges_spec ((outQubits l r.qubits).map (F.outEdge (wireName (r.time + 1) idx)) ++
    (inQubits l r.qubits).map fun q => wireName r.time idx q) s2 hall2 (by rw [htn2]; exact h.draws.nodup)
  rw [htn2] at c4
  obtain ⟨tn', d1, d2, d3, d4⟩ := h.draws.place (I := I) (ten := ten) hg (op := r.op)
    (outs := (outQubits l r.qubits).map (F.outEdge (wireName (r.time + 1) idx)))
    (ins := (inQubits l r.qubits).map fun q => wireName r.time idx q) (by simpa using hd) c2 c4
  refine ⟨{ s2 with tn := tn', all := A }, ?_, ⟨?_, ?_, ?_, ?_, ?_, ?_, ?_⟩, d4⟩
  · unfold convGate
    rw [hl]
    dsimp only
    rw [a1]
    dsimp only
    rw [b1]
    dsimp only
    rw [c1]
    dsimp only
    rw [htn2, d1]
  · show Draws val tn' (stepFront I.shape ten F idx r).fs
    have : (stepFront I.shape ten F idx r).fs =
        ⟨(outQubits l r.qubits).map (F.outEdge (wireName (r.time + 1) idx)) ++
          (inQubits l r.qubits).map fun q => wireName r.time idx q, ten r.op⟩ :: F.fs := by
      rw [← hsd]; rfl
    rw [this]
    exact d2
  · intro e
    exact (c3 e).trans (d3 e).symm
  · exact b2
  · exact b3
  · show s2.dicOut.keys.Nodup
    rw [b4]; exact a4
  · intro q
    show s2.dic.get? q = _
    rw [b7 q, a7 q, h.dic q]
    have hm : q ∈ (stepFront I.shape ten F idx r).live ↔ (q ∈ F.live ∧ q ∉ outQubits l r.qubits) ∨ q ∈ inQubits l r.qubits := by
      simp [stepFront, Front.step, actOf, hsd]
    have hd' : (stepFront I.shape ten F idx r).dic q = if q ∈ inQubits l r.qubits then wireName r.time idx q else F.dic q := by
      simp [stepFront, Front.step, actOf, hsd]
    rw [hd']
    by_cases h1 : q ∈ inQubits l r.qubits
    · rw [if_pos h1, if_pos (hm.2 (Or.inr h1)), if_pos h1]
    · rw [if_neg h1, if_neg h1]
      by_cases h2 : q ∈ outQubits l r.qubits
      · rw [if_pos h2, if_neg]
        rw [hm]; tauto
      · rw [if_neg h2]
        by_cases h3 : q ∈ F.live
        · rw [if_pos h3, if_pos (hm.2 (Or.inl ⟨h3, h2⟩))]
        · rw [if_neg h3, if_neg]
          rw [hm]; tauto
  · intro q
    show s2.dicOut.get? q = _
    rw [b4, a8 q, h.dout q]
    have hm : q ∈ (stepFront I.shape ten F idx r).ends ↔ (q ∈ outQubits l r.qubits ∧ q ∉ F.live) ∨ q ∈ F.ends := by
      simp [stepFront, Front.step, actOf, hsd]
    have hd' : (stepFront I.shape ten F idx r).dout q =
        if q ∈ outQubits l r.qubits ∧ q ∉ F.live then wireName (r.time + 1) idx q else F.dout q := by
      simp [stepFront, Front.step, actOf, hsd]
    have hnone : s.dic.get? q = none ↔ q ∉ F.live := by
      rw [h.dic q]
      by_cases h3 : q ∈ F.live <;> simp [h3]
    rw [hd']
    by_cases h1 : q ∈ outQubits l r.qubits ∧ q ∉ F.live
    · rw [if_pos ⟨h1.1, hnone.2 h1.2⟩, if_pos h1, if_pos (hm.2 (Or.inl h1))]
    · rw [if_neg fun hc => h1 ⟨hc.1, hnone.1 hc.2⟩, if_neg h1]
      by_cases h2 : q ∈ F.ends
      · rw [if_pos h2, if_pos (hm.2 (Or.inr h2))]
      · rw [if_neg h2, if_neg]
        rw [hm]; tauto

/-- The loop over the gates, read backwards in time. -/
theorem convLoop_spec (gs : List (Int × Nat × Nm × OpRec α)) : ∀ (S : Circ α) (s : Conv τ) (F : Front Nm R),
    Rel val s F → F.OK wireQubit → Hist I.shape F S →
    F.Computes wireQubit (fun q => (wireWord I.shape q S).head? = some .out) (S.map fun p => actOf I.shape ten p.2) →
    Wired I.shape ((gs.map fun g => g.2.2).reverse ++ S) → (∀ g ∈ gs, g.1 = g.2.2.2.time ∧ Convertible I val ten g.2.2.2) →
    (gs.map fun g => g.2.2.1).Nodup → (∀ g ∈ gs, g.2.2.1 ∉ s.tn.nodes.keys) →
    ∃ s' F', convLoop I gs s = .ok s' ∧ Rel val s' F' ∧ F'.OK wireQubit ∧
      Hist I.shape F' ((gs.map fun g => g.2.2).reverse ++ S) ∧
      F'.Computes wireQubit (fun q => (wireWord I.shape q ((gs.map fun g => g.2.2).reverse ++ S)).head? = some .out)
        (((gs.map fun g => g.2.2).reverse ++ S).map fun p => actOf I.shape ten p.2) := by
  induction gs with
  | nil => exact fun S s F h1 h2 h3 h4 _ _ _ _ => ⟨s, F, rfl, h1, h2, h3, h4⟩
  | cons g gs ih =>
    intro S s F h1 h2 h3 h4 h5 h6 h7 h8
    obtain ⟨t, idx, n, r⟩ := g
    obtain ⟨ht, hc⟩ := h6 (t, idx, n, r) (by simp)
    dsimp only at ht hc
    subst ht
    simp only [List.map_cons, List.reverse_cons, List.append_assoc, List.singleton_append] at h5 ⊢
    have hw : Wired I.shape ((n, r) :: S) := h5.suffix
    obtain ⟨s1, k1, k2, k3⟩ := h1.step (idx := idx) h3 hw hc (h8 (r.time, idx, n, r) (by simp))
    have hn : r.qubits.Nodup := hc.choose_spec.2.2.1
    have hfit := h3.fits (ten := ten) (names_wire r.time idx) hw hn
    obtain ⟨h7a, h7b⟩ := List.nodup_cons.1 h7
    obtain ⟨s', F', m1, m2⟩ := ih ((n, r) :: S) s1 (stepFront I.shape ten F idx r) k2 (h2.step hfit) (h3.step (names_wire r.time idx) hw hn)
      (Computes_step h3 (names_wire r.time idx) h2 hw hn h4) h5 (fun g hg => h6 g (by simp [hg])) h7b (fun g hg hm => by
        rcases k3 _ hm with e | hm
        · exact h7a (List.mem_map.2 ⟨g, hg, e⟩)
        · exact h8 g (by simp [hg]) hm)
    refine ⟨s', F', ?_, m2⟩
    rw [convLoop, k1]
    exact m1

end Circ

end Verif
