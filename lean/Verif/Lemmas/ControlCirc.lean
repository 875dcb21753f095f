import Verif.Lemmas.ControlEvolve
/-!
# The conversion of a `ControlledCircuit`
-/

set_option linter.unusedSectionVars false

namespace Verif

namespace Circ

variable {α : Type} {sh : ShapeFn α}

/-! ### Circuits in which every qubit is an input and an output of every operation on it -/

/-- All operations have the same inputs and outputs. -/
def AllSquare (sh : ShapeFn α) (c : Circ α) : Prop :=
  ∀ p ∈ c, ∃ s, sh p.2.op = .ok s ∧ s.length = p.2.qubits.length ∧ p.2.qubits.Nodup ∧ Square s

theorem AllSquare.fitting {c : Circ α} (h : AllSquare sh c) : Fitting sh c := fun p hp => by
  obtain ⟨s, h1, h2, h3, -⟩ := h p hp
  exact ⟨s, h1, h2, h3⟩

theorem portsAt_square {s : List (List Letter)} {qs : List Int} (hl : s.length = qs.length) (hn : qs.Nodup) (h : Square s)
    {q : Int} (hq : q ∈ qs) : portsAt s qs q = [.inp, .out] := by
  obtain ⟨k, hk, rfl⟩ := List.getElem_of_mem hq
  have hm : (qs[k], s[k]'(by omega)) ∈ qs.zip s := by
    rw [List.mem_iff_getElem]
    exact ⟨k, by rw [List.length_zip]; omega, by rw [List.getElem_zip]⟩
  rw [portsAt_mem hn hm]
  rcases h _ (List.getElem_mem (by omega : k < s.length)) with e | e <;> rw [e] <;> rfl

theorem inQubits_square {s : List (List Letter)} {qs : List Int} (hl : s.length = qs.length) (hn : qs.Nodup) (h : Square s) :
    inQubits s qs = qs := by
  unfold inQubits
  rw [List.filter_eq_self]
  intro q hq
  rw [portsAt_square hl hn h hq]; rfl

theorem outQubits_square {s : List (List Letter)} {qs : List Int} (hl : s.length = qs.length) (hn : qs.Nodup) (h : Square s) :
    outQubits s qs = qs := by
  unfold outQubits
  rw [List.filter_eq_self]
  intro q hq
  rw [portsAt_square hl hn h hq]; rfl

/-- Passing through operations. -/
def through {β : Type} (l : List β) : List Port := l.flatMap fun _ => [.inp, .out]

theorem AllSquare.word {l : Circ α} (h : AllSquare sh l) (q : Int) : wireWord sh q l = through (touch q l) := by
  induction l with
  | nil => rfl
  | cons p l ih =>
    have ih := ih fun p hp => h p (by simp [hp])
    rw [touch_cons]
    unfold wireWord at ih ⊢
    rw [List.flatMap_cons, ih]
    obtain ⟨s, h1, h2, h3, h4⟩ := h p (by simp)
    have hsd : shapeD sh p.2.op = s := by simp [shapeD, h1]
    rw [hsd]
    split
    · next hq => rw [portsAt_square h2 h3 h4 hq]; rfl
    · next hq => rw [portsAt_nil hq]; rfl

theorem through_chain {β : Type} (l : List β) : Connectable (through l) := by
  unfold Connectable
  induction l with
  | nil => exact List.IsChain.nil
  | cons x l ih =>
    show List.IsChain _ (.inp :: .out :: through l)
    rw [List.isChain_cons_cons]
    refine ⟨by decide, ?_⟩
    cases l with
    | nil => exact List.IsChain.singleton _
    | cons y l =>
      show List.IsChain _ (.out :: .inp :: .out :: through l)
      rw [List.isChain_cons_cons]
      exact ⟨by decide, ih⟩

theorem through_head {β : Type} {l : List β} (h : l ≠ []) : (through l).head? = some .inp := by
  cases l with
  | nil => exact absurd rfl h
  | cons x l => rfl

theorem through_last {β : Type} {l : List β} (h : l ≠ []) : (through l).getLast? = some .out := by
  obtain ⟨l', x, rfl⟩ : ∃ l' x, l = l' ++ [x] := ⟨l.dropLast, l.getLast h, (List.dropLast_append_getLast h).symm⟩
  unfold through
  rw [List.flatMap_append]
  simp

theorem touch_ne {l : Circ α} {q : Int} (h : ∃ p ∈ l, q ∈ p.2.qubits) : touch q l ≠ [] := by
  obtain ⟨p, hp, hq⟩ := h
  exact List.ne_nil_of_mem (List.mem_filter.2 ⟨hp, by simpa using hq⟩)

theorem AllSquare.valid {c : Circ α} (h : AllSquare sh c) (hf : c.Pairwise Follows) :
    ∀ q, ∃ l, Timeline c q l ∧ Connectable (wireWord sh q l) := fun q => by
  refine ⟨touch q c, ⟨List.Perm.refl _, ?_⟩, ?_⟩
  · unfold touch
    rw [List.pairwise_filter]
    exact hf.imp fun h h1 h2 => h ⟨q, by simpa using h1, by simpa using h2⟩
  · have h' : AllSquare sh (touch q c) := fun p hp => h p (List.mem_filter.1 hp).1
    rw [h'.word]
    exact through_chain _

theorem AllSquare.sorted {c : Circ α} (h : AllSquare sh c) : AllSquare sh (timeSorted c) :=
  fun p hp => h p ((timeSorted_perm c).mem_iff.1 hp)

theorem AllSquare.outs {c : Circ α} (h : AllSquare sh c) : circOuts sh c = qubitsOf c := by
  unfold circOuts
  rw [List.filter_eq_self]
  intro q hq
  rw [h.sorted.word, through_last]
  · rfl
  · obtain ⟨p, hp, hq⟩ := mem_qubitsOf.1 hq
    exact touch_ne ⟨p, (timeSorted_perm c).mem_iff.2 hp, hq⟩

theorem AllSquare.ins {c : Circ α} (h : AllSquare sh c) : circIns sh c = qubitsOf c := by
  unfold circIns
  rw [List.filter_eq_self]
  intro q hq
  rw [h.sorted.word, through_head]
  · rfl
  · obtain ⟨p, hp, hq⟩ := mem_qubitsOf.1 hq
    exact touch_ne ⟨p, (timeSorted_perm c).mem_iff.2 hp, hq⟩

theorem AllSquare.shape {c : Circ α} (h : AllSquare sh c) {s : List (List Letter)} (hs : c.shape sh = .ok s) :
    s = (qubitsOf c).map fun _ => [.i, .o] := by
  rw [shape_exact h.fitting hs]
  refine List.map_congr_left fun q hq => ?_
  have hne : touch q (timeSorted c) ≠ [] := by
    obtain ⟨p, hp, hq⟩ := mem_qubitsOf.1 hq
    exact touch_ne ⟨p, (timeSorted_perm c).mem_iff.2 hp, hq⟩
  rw [h.sorted.word]
  unfold endsWord
  rw [through_head hne, through_last hne]
  rfl

variable {R : Type} [CommSemiring R]

theorem AllSquare.act {c : Circ α} (h : AllSquare sh c) (ten : α → List Nat → R) {p : Nm × OpRec α} (hp : p ∈ c) :
    actOf sh ten p.2 = ⟨ten p.2.op, p.2.qubits, p.2.qubits⟩ := by
  obtain ⟨s, h1, h2, h3, h4⟩ := h p hp
  have hsd : shapeD sh p.2.op = s := by simp [shapeD, h1]
  unfold actOf
  rw [hsd, inQubits_square h2 h3 h4, outQubits_square h2 h3 h4]

end Circ

namespace Oper

variable {R : Type} [CommSemiring R] [StarRing R] {ctr : TVal R → Except Err (Arr R)} {I : OpsIface (Oper R) (TVal R)}
  {M : Oper R → List Nat → R} {cond : Bool}

/-- The operation can be controlled; the result means the controlled matrix. -/
def ControlMeans (ctr : TVal R → Except Err (Arr R)) (I : OpsIface (Oper R) (TVal R)) (M : List Nat → R) (cond : Bool) (op : Oper R)
    (s : List (List Letter)) : Prop :=
  I.shape op = .ok s ∧ Square s ∧ ∃ op' t', controlled ctr I op cond = .ok op' ∧
    Means I (controlMat M s.length (if cond then 1 else 0)) op' ([.c] :: s) t'

/-- The qubits of the circuit that implements the controlled circuit (converter.py:38). -/
def shift (qs : List Int) (q : Int) : Int := 1 + (qs.idxOf q : Int)

theorem shift_ne (qs : List Int) (q : Int) : shift qs q ≠ 0 := by unfold shift; omega

theorem shift_inj {qs : List Int} {q : Int} (hq : q ∈ qs) (q' : Int) (h : shift qs q' = shift qs q) : q' = q := by
  unfold shift at h
  have h1 : qs.idxOf q' = qs.idxOf q := by omega
  exact (List.idxOf_inj hq).1 h1.symm |>.symm

theorem cctrlLoop_spec {qs : List Int} : ∀ (l : List (Nm × OpRec (Oper R))) (c0 : Circ (Oper R)),
    (∀ p ∈ l, (∃ s, ControlMeans ctr I (M p.2.op) cond p.2.op s ∧ s.length = p.2.qubits.length) ∧ p.2.qubits.Nodup ∧
      ∀ q ∈ p.2.qubits, q ∈ qs) →
    (∀ p ∈ c0, p.1 = Circ.autoName p.2.time p.2.qubits) → c0.Pairwise (fun p p' => p.2.time < p'.2.time) →
    ∃ l' : Circ (Oper R), cctrlLoop ctr I cond qs l c0 = .ok (c0 ++ l') ∧
      List.Forall₂ (fun p p' => controlled ctr I p.2.op cond = .ok p'.2.op ∧ p'.2.qubits = 0 :: p.2.qubits.map (shift qs)) l l' ∧
      (∀ p ∈ c0 ++ l', p.1 = Circ.autoName p.2.time p.2.qubits) ∧
      (c0 ++ l').Pairwise (fun p p' => p.2.time < p'.2.time)
  | [], c0, _, h1, h2 => ⟨[], by rw [List.append_nil]; rfl, List.Forall₂.nil, by simpa using h1, by simpa using h2⟩
  | (n, r) :: l, c0, h, h1, h2 => by
    obtain ⟨⟨s, ⟨k1, k2, op', t', k3, k4⟩, k5⟩, k6, k7⟩ := h (n, r) (by simp)
    dsimp only at k1 k3 k4 k5 k6 k7
    set e : Nm × OpRec (Oper R) := (Circ.autoName (1 + c0.maxTime) (0 :: r.qubits.map (shift qs)),
      ⟨op', 1 + c0.maxTime, 0 :: r.qubits.map (shift qs)⟩) with he
    have hlt : ∀ p ∈ c0, p.2.time < e.2.time := fun p hp => by
      have := Circ.time_le_max hp
      show p.2.time < 1 + c0.maxTime
      omega
    have hnew : e.1 ∉ c0.keys := fun hm => by
      obtain ⟨p, hp, hpe⟩ := List.mem_map.1 hm
      have h3 := h1 p hp
      rw [hpe] at h3
      have := (Circ.autoName_inj h3).1
      have := hlt p hp
      simp only [he] at *
      omega
    have hnd : (0 :: r.qubits.map (shift qs)).Nodup := by
      rw [List.nodup_cons]
      constructor
      · intro hm
        obtain ⟨q, -, hq⟩ := List.mem_map.1 hm
        exact shift_ne qs q hq
      · rw [List.nodup_map_iff_inj_on k6]
        exact fun q _ q' hq' e => shift_inj (k7 q' hq') q e
    have happ : Circ.append I.shape c0 op' (0 :: r.qubits.map fun q => 1 + (qs.idxOf q : Int)) = .ok (c0 ++ [e]) := by
      unfold Circ.append
      dsimp only [Option.getD_none]
      have e1 : (fun q => 1 + (qs.idxOf q : Int)) = shift qs := rfl
      rw [e1, if_neg (by simpa using hnd), k4.shape]
      dsimp only
      rw [if_neg (by simp [k5])]
      congr 1
      exact Dict.set_eq_append hnew _
    obtain ⟨l', m1, m2, m3, m4⟩ := cctrlLoop_spec l (c0 ++ [e]) (fun p hp => h p (by simp [hp])) (by
      intro p hp
      rcases List.mem_append.1 hp with hp | hp
      · exact h1 p hp
      · simp only [List.mem_singleton] at hp; subst hp; rfl) (by
      rw [List.pairwise_append]
      refine ⟨h2, List.pairwise_singleton _ _, fun p hp p' hp' => ?_⟩
      simp only [List.mem_singleton] at hp'; subst hp'
      exact hlt p hp)
    rw [List.append_assoc] at m1 m3 m4
    refine ⟨e :: l', ?_, List.Forall₂.cons ⟨k3, rfl⟩ m2, m3, m4⟩
    rw [cctrlLoop, k3]
    dsimp only
    rw [happ]
    exact m1

theorem forall₂_right {A B : Type} {P : A → B → Prop} {l : List A} {l' : List B} (h : List.Forall₂ P l l') {b : B} (hb : b ∈ l') :
    ∃ a ∈ l, P a b := by
  induction h with
  | nil => simp at hb
  | cons h1 _ ih =>
    rcases List.mem_cons.1 hb with rfl | hb
    · exact ⟨_, List.mem_cons_self, h1⟩
    · obtain ⟨a, ha, hp⟩ := ih hb
      exact ⟨a, List.mem_cons_of_mem _ ha, hp⟩

theorem forall₂_left {A B : Type} {P : A → B → Prop} {l : List A} {l' : List B} (h : List.Forall₂ P l l') {a : A} (ha : a ∈ l) :
    ∃ b ∈ l', P a b := by
  induction h with
  | nil => simp at ha
  | cons h1 _ ih =>
    rcases List.mem_cons.1 ha with rfl | ha
    · exact ⟨_, List.mem_cons_self, h1⟩
    · obtain ⟨b, hb, hp⟩ := ih ha
      exact ⟨b, List.mem_cons_of_mem _ hb, hp⟩

theorem map_shift {Q : List Int} (hn : Q.Nodup) : Q.map (shift Q) = (List.range Q.length).map fun k : Nat => 1 + (k : Int) := by
  apply List.ext_getElem (by simp)
  intro k h1 h2
  simp only [List.getElem_map, List.getElem_range, shift]
  rw [hn.idxOf_getElem]

/-- A controlled circuit is converted to the controlled matrix of the circuit. -/
theorem means_cctrl {c : Circ (Oper R)} (hne : c ≠ []) (hf : c.Pairwise Circ.Follows)
    (hc : ∀ p ∈ c, (∃ s, ControlMeans ctr I (M p.2.op) cond p.2.op s ∧ s.length = p.2.qubits.length) ∧ p.2.qubits.Nodup) :
    ∃ s, Circ.shape I.shape c = .ok s ∧ Square s ∧ (circOuts I.shape c).length = s.length ∧
    ∃ c' tn, cctrlLoop ctr I cond (Circ.allQubits c) c [] = .ok c' ∧ c'.convertPure I = .ok tn ∧
      (TVal.ofTN tn).shape = some (List.replicate ((s.length + 1) + (s.length + 1)) (some 2)) ∧ TVal.Whole (.ofTN tn) ∧
      ∀ idx, Bits idx ((s.length + 1) + (s.length + 1)) →
        (TVal.ofTN tn).tot idx = controlMat (circMat I.shape M c) s.length (if cond then 1 else 0) idx := by
  set b : Nat := if cond then 1 else 0 with hb
  set Q := qubitsOf c with hQ
  have hQn : Q.Nodup := (Circ.qubitsOf_sorted c).imp fun h => ne_of_lt h
  have hsq : Circ.AllSquare I.shape c := fun p hp => by
    obtain ⟨⟨s, ⟨k1, k2, -⟩, k3⟩, k4⟩ := hc p hp
    exact ⟨s, k1, k3, k4, k2⟩
  obtain ⟨s, hs⟩ := (Circ.c35_shape_iff hsq.fitting).2 (hsq.valid hf)
  have hse := hsq.shape hs
  have hsl : s.length = Q.length := by rw [hse, List.length_map]
  refine ⟨s, hs, ?_, by rw [hsq.outs, hsl], ?_⟩
  · rw [hse]; intro w hw; obtain ⟨q, -, rfl⟩ := List.mem_map.1 hw; exact Or.inl rfl
  rw [hsl]
  have hsub : ∀ p ∈ c, ∀ q ∈ p.2.qubits, q ∈ Q := fun p hp q hq => Circ.mem_qubitsOf.2 ⟨p, hp, hq⟩
  obtain ⟨c', g1, g2, g3, g4⟩ := cctrlLoop_spec (ctr := ctr) (I := I) (M := M) (cond := cond) (qs := Q) c []
    (fun p hp => ⟨(hc p hp).1, (hc p hp).2, hsub p hp⟩) (by simp) List.Pairwise.nil
  rw [List.nil_append] at g1 g3 g4
  -- the operations of the new circuit
  have hrel : ∀ p', p' ∈ c' → ∃ p ∈ c, ∃ s t', p'.2.qubits = 0 :: p.2.qubits.map (shift Q) ∧ s.length = p.2.qubits.length ∧
      Square s ∧ Means I (controlMat (M p.2.op) s.length b) p'.2.op ([.c] :: s) t' := fun p' hp' => by
    obtain ⟨p, hp, k1, k2⟩ := forall₂_right g2 hp'
    obtain ⟨⟨s, ⟨j1, j2, op', t', j3, j4⟩, j5⟩, -⟩ := hc p hp
    rw [k1] at j3
    cases j3
    exact ⟨p, hp, s, t', k2, j5, j2, j4⟩
  have hnd' : ∀ p ∈ c, (0 :: p.2.qubits.map (shift Q)).Nodup := fun p hp => by
    rw [List.nodup_cons]
    constructor
    · intro hm
      obtain ⟨q, -, hq⟩ := List.mem_map.1 hm
      exact shift_ne Q q hq
    · rw [List.nodup_map_iff_inj_on (hc p hp).2]
      exact fun q _ q' hq' e => shift_inj (hsub p hp q' hq') q e
  have hsq' : Circ.AllSquare I.shape c' := fun p' hp' => by
    obtain ⟨p, hp, s, t', k1, k2, k3, k4⟩ := hrel p' hp'
    exact ⟨_, k4.shape, by simp [k1, k2], by rw [k1]; exact hnd' p hp, k3.cons⟩
  have hmean' : Circ.OpsMean I (totD I) c' := fun p' hp' => by
    obtain ⟨p, hp, s, t', k1, k2, k3, k4⟩ := hrel p' hp'
    refine ⟨_, t', ⟨k4.shape, k4.pure, k4.tensor, k4.dims, k4.whole, fun idx _ => by rw [k4.totD_eq], fun b' k hbk => ?_⟩,
      by simp [k1, k2], by rw [k1]; exact hnd' p hp⟩
    have := (k4.basis b' k hbk).2.1
    cases b' <;> simp at this
  have hf' : c'.Pairwise Circ.Follows := g4.imp fun {_ _} h => fun _ => h
  have hkeys' : c'.keys.Nodup := by
    unfold Dict.keys
    rw [List.Nodup, List.pairwise_map]
    refine g4.imp_of_mem fun {p p'} hp hp' hlt he => ?_
    rw [g3 p hp, g3 p' hp'] at he
    have := (Circ.autoName_inj he).1
    omega
  obtain ⟨s', hs'⟩ := (Circ.c35_shape_iff hsq'.fitting).2 (hsq'.valid hf')
  -- its qubits
  have hQ' : qubitsOf c' = 0 :: Q.map (shift Q) := by
    rw [map_shift hQn]
    refine Circ.sorted_unique (Circ.qubitsOf_sorted c') ?_ fun q => ?_
    · rw [List.pairwise_cons]
      refine ⟨fun q hq => ?_, ?_⟩
      · obtain ⟨k, -, rfl⟩ := List.mem_map.1 hq; omega
      · rw [List.pairwise_map]
        exact List.pairwise_lt_range.imp fun h => by omega
    · rw [Circ.mem_qubitsOf, ← map_shift hQn]
      constructor
      · rintro ⟨p', hp', hq⟩
        obtain ⟨p, hp, s, t', k1, -⟩ := hrel p' hp'
        rw [k1] at hq
        rcases List.mem_cons.1 hq with rfl | hq
        · exact List.mem_cons_self
        · obtain ⟨q0, hq0, rfl⟩ := List.mem_map.1 hq
          exact List.mem_cons_of_mem _ (List.mem_map.2 ⟨q0, hsub p hp q0 hq0, rfl⟩)
      · intro hq
        rcases List.mem_cons.1 hq with rfl | hq
        · obtain ⟨p, hp⟩ := List.exists_mem_of_ne_nil c hne
          obtain ⟨p', hp', -, k2⟩ := forall₂_left g2 hp
          exact ⟨p', hp', by rw [k2]; exact List.mem_cons_self⟩
        · obtain ⟨q0, hq0, rfl⟩ := List.mem_map.1 hq
          obtain ⟨p, hp, hq1⟩ := Circ.mem_qubitsOf.1 hq0
          obtain ⟨p', hp', -, k2⟩ := forall₂_left g2 hp
          exact ⟨p', hp', by rw [k2]; exact List.mem_cons_of_mem _ (List.mem_map.2 ⟨q0, hq1, rfl⟩)⟩
  have hl' : (qubitsOf c').length = Q.length + 1 := by rw [hQ']; simp
  obtain ⟨-, tn, t1, t2, t3, t4⟩ := Circ.means_circ hkeys' hs' hmean'
  have hlen : (outPlaces s').length + (inPlaces s').length = (Q.length + 1) + (Q.length + 1) := by
    rw [Circ.outs_length hsq'.fitting hs', Circ.ins_length hsq'.fitting hs', hsq'.outs, hsq'.ins, hl']
  rw [hlen] at t2 t4
  refine ⟨c', tn, g1, t1, t2, t3, fun idx hi => ?_⟩
  rw [t4 idx hi]
  -- the values of the qubits
  obtain ⟨hb1, hb2⟩ := hi.split
  have ndQ' : (qubitsOf c').Nodup := (Circ.qubitsOf_sorted c').imp fun h => ne_of_lt h
  set u := readAt (qubitsOf c') idx with hu
  set v := readAt (qubitsOf c') (idx.drop (Q.length + 1)) with hv
  have hub : ∀ q, u q < 2 := readAt_bits hi.2
  have hvb : ∀ q, v q < 2 := readAt_bits hb2.2
  have ez : idx = (u 0 :: Q.map (u ∘ shift Q)) ++ (v 0 :: Q.map (v ∘ shift Q)) := by
    have e1 : (u 0 :: Q.map (u ∘ shift Q)) = (qubitsOf c').map u := by rw [hQ', List.map_cons, List.map_map]
    have e2 : (v 0 :: Q.map (v ∘ shift Q)) = (qubitsOf c').map v := by rw [hQ', List.map_cons, List.map_map]
    rw [e1, e2, hu, hv, map_readAt ndQ' (by rw [hl', hi.1]; omega), map_readAt ndQ' (by rw [hl', hb2.1]), hl',
      List.take_of_length_le (l := idx.drop _) (by rw [hb2.1]), List.take_append_drop]
  have eL : circMat I.shape (totD I) c' idx =
      evolve ((timeSorted c').map fun p => actOf I.shape (totD I) p.2) (basisState (qubitsOf c') v) u := by
    unfold circMat
    rw [hsq'.ins, hsq'.outs, hl']
  have hacts : List.Forall₂ Act.Same (c'.map fun p => actOf I.shape (totD I) p.2)
      ((c.map fun p => actOf I.shape M p.2).map (Act.ctrl (shift Q) b)) := by
    rw [List.map_map, List.forall₂_map_left_iff, List.forall₂_map_right_iff]
    have key : ∀ (l l' : Circ (Oper R)), List.Forall₂ (fun p p' => controlled ctr I p.2.op cond = .ok p'.2.op ∧
        p'.2.qubits = 0 :: p.2.qubits.map (shift Q)) l l' → (∀ p ∈ l, p ∈ c) → (∀ p ∈ l', p ∈ c') →
        List.Forall₂ (fun p' p => Act.Same (actOf I.shape (totD I) p'.2) (Act.ctrl (shift Q) b (actOf I.shape M p.2))) l' l := by
      intro l l' h
      induction h with
      | nil => exact fun _ _ => List.Forall₂.nil
      | @cons p p' l l' h1 _ ih =>
        intro m1 m2
        refine List.Forall₂.cons ?_ (ih (fun p hp => m1 p (by simp [hp])) fun p hp => m2 p (by simp [hp]))
        rw [hsq.act M (m1 p (by simp)), hsq'.act (totD I) (m2 p' (by simp))]
        obtain ⟨⟨s, ⟨j1, j2, op', t', j3, j4⟩, j5⟩, -⟩ := hc p (m1 p (by simp))
        rw [h1.1] at j3
        cases j3
        refine ⟨h1.2, h1.2, fun x hx => ?_⟩
        have hx' : Bits x ((outPlaces ([.c] :: s)).length + (inPlaces ([.c] :: s)).length) := by
          rw [j2.cons.outs, j2.cons.ins]
          simp only [h1.2, List.length_cons, List.length_map, List.length_range] at hx ⊢
          rw [j5]; exact hx
        show totD I p'.2.op x = controlMat (M p.2.op) p.2.qubits.length b x
        rw [j4.totD_eq, j4.entries x hx', j5]
    exact key c c' g2 (fun _ h => h) (fun _ h => h)
  have hev : circMat I.shape (totD I) c' idx =
      evolve ((c.map fun p => actOf I.shape M p.2).map (Act.ctrl (shift Q) b)) (basisState (qubitsOf c') v) u := by
    rw [eL, Circ.evolve_follows (Circ.timeSorted_perm c') (Circ.timeSorted_follows (hsq'.valid hf')) hf']
    exact evolve_same hacts (fun _ _ => rfl) hub
  -- control and qubits
  have hjoint := Joint.evolve (R := R) (φ := shift Q) (a := v 0) (b := b)
    (Θ := fun w => if ∀ q ∈ Q, w (shift Q q) = v (shift Q q) then 1 else 0) (hvb 0) (shift_ne Q)
    (l := c.map fun p => actOf I.shape M p.2) (by
      intro a ha
      obtain ⟨p, hp, rfl⟩ := List.mem_map.1 ha
      rw [hsq.act M hp]
      exact ⟨rfl, (hc p hp).2, fun q hq q' e => shift_inj (hsub p hp q hq) q' e⟩)
    (Ψ := basisState Q (v ∘ shift Q)) (Ψ' := basisState (qubitsOf c') v) (by
      intro w _
      unfold basisState
      rw [hQ']
      by_cases h0 : w 0 = v 0
      · rw [if_pos h0]
        have e1 : (∀ q ∈ 0 :: Q.map (shift Q), w q = v q) ↔ ∀ q ∈ Q, w (shift Q q) = v (shift Q q) := by
          simp [h0]
        by_cases h1 : v 0 = b
        · rw [if_pos h1]
          exact if_congr e1 rfl rfl
        · rw [if_neg h1]
          exact if_congr e1 rfl rfl
      · rw [if_neg h0, if_neg fun h => h0 (h 0 (by simp))])
  rw [hev, hjoint u hub, ez, controlMat_cons _ _ _ _ (by simp)]
  by_cases h0 : u 0 = v 0
  · rw [if_pos h0, if_pos h0]
    by_cases h1 : v 0 = b
    · rw [if_pos h1, if_pos (by rw [h0, h1])]
      unfold circMat
      rw [hsq.ins, hsq.outs]
      have hdrop : (Q.map (u ∘ shift Q) ++ Q.map (v ∘ shift Q)).drop Q.length = Q.map (v ∘ shift Q) := by
        rw [List.drop_left' (by simp)]
      rw [hdrop]
      have hbs : (basisState Q (readAt Q (Q.map (v ∘ shift Q))) : (Int → Nat) → R) = basisState Q (v ∘ shift Q) := by
        funext w
        unfold basisState
        refine if_congr (forall_congr' fun q => forall_congr' fun hq => ?_) rfl rfl
        rw [readAt_map' hq]
      rw [hbs, Circ.evolve_follows (Circ.timeSorted_perm c) (Circ.timeSorted_follows (hsq.valid hf)) hf]
      refine evolve_dep (Q := Q) (fun a ha => ?_) (fun w w' hw => ?_) _ _ fun q hq => ?_
      · obtain ⟨p, hp, rfl⟩ := List.mem_map.1 ha
        rw [hsq.act M hp]
        exact ⟨hsub p hp, hsub p hp⟩
      · unfold basisState
        refine if_congr (forall_congr' fun q => forall_congr' fun hq => ?_) rfl rfl
        rw [hw q hq]
      · rw [readAt_map hq]
    · rw [if_neg h1, if_neg (by rw [h0]; exact h1)]
      refine if_congr ?_ rfl rfl
      rw [List.map_inj_left]
      rfl
  · rw [if_neg h0, if_neg h0]

end Oper

end Verif
