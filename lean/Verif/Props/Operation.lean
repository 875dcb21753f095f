import Verif.Lemmas.OperAdj
/-!
# C36, C38 for operations of all classes: nested circuits, controlled operations and superpositions

`c36_operation`: an operation built from pure gates, controlled gates, circuits and superpositions, nested to any depth,
is converted to a tensor whose entries are those of the matrix of the operation.
`c38_operation`: its adjoint exists, is such an operation again, and has the conjugate transposed matrix.
-/

set_option linter.unusedSectionVars false

namespace Verif

variable {R : Type} [CommSemiring R] [StarRing R]

namespace Oper

/-- Operations as the constructors make them, other than `ImmutableOperation` and `ControlledCircuit`: gates with data of
the right size, whose declared adjoints are their adjoints; valid circuits, in which operations on no qubits have times
of their own; superpositions that the constructor accepts. -/
def Sound (ctr : TVal R → Except Err (Arr R)) : Nat → Oper R → Prop
  | 0, _ => False
  | _ + 1, .imm _ _ => False
  | _ + 1, .pure p q => PureOk p ∧ ∀ p', q = some p' → PureOk p' ∧ p'.shape = flipShape p.shape ∧
      ConjTransposed p'.data.tot p.data.tot (inPlaces p.shape).length (outPlaces p.shape).length
  | _ + 1, .ctrl data s sa ov => CtrlOk data s sa ∧ ∀ data', ov = some data' → flipShape s = s ∧ CtrlOk data' s sa ∧
      ConjTransposed (blockMat data'.tot s) (blockMat data.tot s) (inPlaces s).length (outPlaces s).length
  | n + 1, .circ c => (Dict.keys c).Nodup ∧ (∃ s, Circ.shape (iface ctr n).shape c = .ok s) ∧
      (∀ p ∈ c, Sound ctr n p.2.op ∧ p.2.qubits.Nodup ∧ ∃ s, (iface ctr n).shape p.2.op = .ok s ∧ s.length = p.2.qubits.length) ∧
      (c.filter fun p => p.2.qubits = []).Pairwise fun p p' => p.2.time ≠ p'.2.time
  | _ + 1, .cctrl _ _ _ => False
  | n + 1, .sup terms s => newSup (iface ctr n) terms = .ok (.sup terms s) ∧ ∀ p ∈ terms, Sound ctr n p.2

/-- The matrix of an operation. -/
def matrix (ctr : TVal R → Except Err (Arr R)) (n : Nat) (op : Oper R) : List Nat → R :=
  mat (fun k => (iface ctr k).shape) n op

/-! ### Superpositions -/

theorem mapM_ok_mem {A B : Type} {f : A → Except Err B} : ∀ {l : List A} {r : List B}, l.mapM f = .ok r → ∀ a ∈ l, ∃ b, f a = .ok b
  | [], _, _ => by simp
  | a :: l, r, h => by
    rw [List.mapM_cons] at h
    cases ha : f a with
    | error e => rw [ha] at h; cases h
    | ok b =>
      cases hl : l.mapM f with
      | error e => rw [ha, hl] at h; cases h
      | ok r' =>
        intro x hx
        rcases List.mem_cons.1 hx with rfl | hx
        · exact ⟨b, ha⟩
        · exact mapM_ok_mem hl x hx

/-- The shape of a superposition. -/
def openCtrl (s : List (List Letter)) : List (List Letter) := s.map fun w => if w = [.c] then [.i, .o] else w

theorem places_openCtrl {P : List Letter → Prop} [DecidablePred P] {s : List (List Letter)} (h : P [.c] ↔ P [.i, .o]) :
    places P (openCtrl s) = places P s := by
  unfold places openCtrl
  rw [List.length_map]
  refine List.filter_congr fun k hk => decide_eq_decide.2 ?_
  have hk := List.mem_range.1 hk
  rw [List.getElem?_map, List.getElem?_eq_getElem hk]
  simp only [Option.map_some, Option.getD_some]
  split
  · next e => rw [e]; exact h.symm
  · exact Iff.rfl

theorem outPlaces_openCtrl (s : List (List Letter)) : outPlaces (openCtrl s) = outPlaces s := places_openCtrl (by decide)
theorem inPlaces_openCtrl (s : List (List Letter)) : inPlaces (openCtrl s) = inPlaces s := places_openCtrl (by decide)

theorem openCtrl_flip (s : List (List Letter)) : openCtrl (flipShape s) = flipShape (openCtrl s) := by
  unfold openCtrl flipShape
  rw [List.map_map, List.map_map]
  refine List.map_congr_left fun w _ => ?_
  simp only [Function.comp_apply]
  by_cases h : w = [.c]
  · subst h; decide
  · rw [if_neg h, if_neg fun h' => h ((flip_eq_c w).1 h')]

theorem supCheck_ok {I : OpsIface (Oper R) (TVal R)} {s0 : List (List Letter)} {op : Oper R} :
    supCheck I s0 op = .ok () ↔ ∃ s, I.shape op = .ok s ∧ inPlaces s = inPlaces s0 ∧ outPlaces s = outPlaces s0 ∧
      I.pure op = .ok true ∧ s.length ≤ s0.length := by
  unfold supCheck
  cases h1 : I.shape op with
  | error e => simp
  | ok s =>
    dsimp only
    rw [indicesWith_startsIn, indicesWith_startsIn, indicesWith_endsOut, indicesWith_endsOut]
    by_cases h2 : inPlaces s ≠ inPlaces s0 ∨ outPlaces s ≠ outPlaces s0
    · rw [if_pos h2]
      refine ⟨(fun h => by cases h), ?_⟩
      rintro ⟨s', hs', h3, h4, -⟩
      cases hs'
      exact absurd h2 (by simp [h3, h4])
    · rw [if_neg h2]
      push Not at h2
      cases h3 : I.pure op with
      | error e => simp
      | ok b =>
        cases b
        · simp
        · dsimp only
          by_cases h4 : s0.length < s.length
          · rw [if_pos h4]
            refine ⟨(fun h => by cases h), ?_⟩
            rintro ⟨s', hs', -, -, -, h5⟩
            cases hs'
            omega
          · rw [if_neg h4]
            exact ⟨fun _ => ⟨s, rfl, h2.1, h2.2, rfl, by omega⟩, fun _ => rfl⟩

theorem newSup_ok {I : OpsIface (Oper R) (TVal R)} {terms : List (R × Oper R)} {r : Oper R} :
    newSup I terms = .ok r ↔ ∃ c0 op0 l s0, terms = (c0, op0) :: l ∧ I.shape op0 = .ok s0 ∧
      (∀ p ∈ terms, supCheck I s0 p.2 = .ok ()) ∧ r = .sup terms (openCtrl s0) := by
  unfold newSup
  cases terms with
  | nil => simp
  | cons p l =>
    obtain ⟨c0, op0⟩ := p
    dsimp only
    cases h1 : I.shape op0 with
    | error e =>
      refine ⟨(fun h => by cases h), ?_⟩
      rintro ⟨c, o, l', s0, h, h2, -⟩
      cases h
      rw [h1] at h2; cases h2
    | ok s0 =>
      dsimp only
      cases h2 : List.mapM (fun p : R × Oper R => supCheck I s0 p.2) ((c0, op0) :: l) with
      | error e =>
        refine ⟨(fun h => by cases h), ?_⟩
        rintro ⟨c, o, l', s, h, h3, h4, -⟩
        cases h
        rw [h1] at h3; cases h3
        rw [mapM_ok (g := fun _ => ()) h4] at h2
        cases h2
      | ok us =>
        have h3 := mapM_ok_mem h2
        constructor
        · intro h
          cases h
          exact ⟨c0, op0, l, s0, rfl, h1, fun p hp => by obtain ⟨u, hu⟩ := h3 p hp; exact hu, rfl⟩
        · rintro ⟨c, o, l', s, h, h4, -, rfl⟩
          cases h
          rw [h1] at h4; cases h4
          rfl

theorem sum_conj (l : List (R × Oper R)) (f g : Oper R → R) (h : ∀ p ∈ l, g p.2 = star (f p.2)) :
    (l.map fun p => star p.1 * g p.2).sum = star (l.map fun p => p.1 * f p.2).sum := by
  induction l with
  | nil => simp
  | cons p l ih =>
    rw [List.map_cons, List.map_cons, List.sum_cons, List.sum_cons, star_add, star_mul', h p (by simp),
      ih fun p hp => h p (by simp [hp])]

variable (ctr : TVal R → Except Err (Arr R))

/-- A superposition of operations that mean matrices means their linear combination. -/
theorem means_sup {n : Nat} {terms : List (R × Oper R)} {s : List (List Letter)}
    (h : newSup (iface ctr n) terms = .ok (.sup terms s))
    (hm : ∀ p ∈ terms, ∃ s t, Means (iface ctr n) (matrix ctr n p.2) p.2 s t) :
    ∃ t, Means (iface ctr (n + 1)) (matrix ctr (n + 1) (.sup terms s)) (.sup terms s) s t := by
  obtain ⟨c0, op0, l, s0, h1, h2, h3, h4⟩ := newSup_ok.1 h
  obtain rfl : s = openCtrl s0 := by cases h4; rfl
  have key : ∀ p ∈ terms, ∃ t, (iface ctr n).tensor p.2 = .ok t ∧
      t.shape = some (List.replicate ((outPlaces s0).length + (inPlaces s0).length) (some 2)) ∧ TVal.Whole t ∧
      ∀ idx, Bits idx ((outPlaces s0).length + (inPlaces s0).length) → t.tot idx = matrix ctr n p.2 idx := fun p hp => by
    obtain ⟨s, t, k⟩ := hm p hp
    obtain ⟨s', j1, j2, j3, -⟩ := supCheck_ok.1 (h3 p hp)
    rw [k.shape] at j1
    cases j1
    exact ⟨t, k.tensor, by rw [k.dims, j2, j3], k.whole, fun idx hi => k.entries idx (by rw [j2, j3]; exact hi)⟩
  obtain ⟨ts, g1, g2, g3, g4⟩ := supLoop_spec (I := iface ctr n) (M := matrix ctr n) rfl terms 0 {} (fun c hc => by cases hc) key (by simp) rfl
  have hne : ts.terms ≠ [] := by
    intro e
    rw [e, h1] at g3
    simp at g3
  refine ⟨.sum ts.terms, ⟨rfl, rfl, ?_, ?_, ?_, fun idx hi => ?_, fun b k hb => by cases hb⟩⟩
  · show (supLoop (iface ctr n) terms 0 {}).map _ = _
    rw [g1]; rfl
  · rw [outPlaces_openCtrl, inPlaces_openCtrl, TVal.shape, replicate_some]
    exact termsShape_same ts.terms none (fun p hp => by rw [(g2 p hp).1, replicate_some]) (Or.inl rfl) (Or.inl hne)
  · rw [TVal.Whole]
    refine ⟨?_, compatible_same (S := List.replicate ((outPlaces s0).length + (inPlaces s0).length) (some 2)) fun s hs => ?_, whole_terms fun p hp => (g2 p hp).2⟩
    · rw [g3]
      exact List.nodup_range.map fun a b e => by simpa using e
    · obtain ⟨p, hp, hs⟩ := List.mem_filterMap.1 hs
      have := (g2 p hp).1
      rw [show HasShape.shape p.2 = p.2.shape from rfl, this] at hs
      exact (Option.some.inj hs).symm
  · rw [outPlaces_openCtrl, inPlaces_openCtrl] at hi
    rw [TVal.tot]
    show TVal.totSum ts.terms idx = _
    rw [g4 idx hi]
    show TVal.totSum [] idx + _ = _
    rw [TVal.totSum, zero_add]
    rfl

/-! ### The conversion -/

theorem means_sound : ∀ (n : Nat) (op : Oper R), Sound ctr n op → ∃ s t, Means (iface ctr n) (matrix ctr n op) op s t
  | 0, op, h => by cases op <;> exact absurd h (by simp [Sound])
  | n + 1, .imm _ _, h => absurd h (by simp [Sound])
  | n + 1, .pure p q, h => by
    rw [Sound] at h
    exact ⟨p.shape, p.data, rfl, rfl, rfl, h.1.dims, h.1.whole, fun _ _ => rfl, h.1.mark⟩
  | n + 1, .ctrl data s sa ov, h => by
    rw [Sound] at h
    obtain ⟨t, h1, h2, h3, h4⟩ := convertCtrl_spec h.1.words h.1.dims h.1.whole
    exact ⟨s, t, rfl, rfl, h1, h2, h3, h4, fun b k hb => by cases hb⟩
  | n + 1, .circ c, h => by
    rw [Sound] at h
    obtain ⟨h1, ⟨s, h2⟩, h3, -⟩ := h
    obtain ⟨k1, tn, k2, k3, k4, k5⟩ := Circ.means_circ (c := c) (I := iface ctr n) (M := matrix ctr n) h1 h2 fun p hp => by
      obtain ⟨j1, j2, s, j3, j4⟩ := h3 p hp
      obtain ⟨s', t, j5⟩ := means_sound n p.2.op j1
      rw [j5.shape] at j3
      cases j3
      exact ⟨_, t, j5, j4, j2⟩
    refine ⟨s, .ofTN tn, h2, k1, ?_, k3, k4, k5, fun b k hb => by cases hb⟩
    show (Circ.convertPure (iface ctr n) c).map _ = _
    rw [k2]; rfl
  | n + 1, .cctrl _ _ _, h => absurd h (by simp [Sound])
  | n + 1, .sup terms s, h => by
    rw [Sound] at h
    obtain ⟨t, ht⟩ := means_sup ctr h.1 fun p hp => means_sound n p.2 (h.2 p hp)
    exact ⟨s, t, ht⟩

/-- **C36.**  An operation is converted to a tensor with the entries of its matrix. -/
theorem c36_operation {n : Nat} {op : Oper R} (h : Sound ctr n op) :
    ∃ s t, (iface ctr n).shape op = .ok s ∧ (iface ctr n).pure op = .ok true ∧ (iface ctr n).tensor op = .ok t ∧
      t.shape = some (List.replicate ((outPlaces s).length + (inPlaces s).length) (some 2)) ∧
      ∀ idx, Bits idx ((outPlaces s).length + (inPlaces s).length) → t.tot idx = matrix ctr n op idx := by
  obtain ⟨s, t, k⟩ := means_sound ctr n op h
  exact ⟨s, t, k.shape, k.pure, k.tensor, k.dims, k.entries⟩

/-! ### The adjoint -/

theorem conjTransposed_symm {A A' : List Nat → R} {a b : Nat} (h : ConjTransposed A' A a b) : ConjTransposed A A' b a := by
  intro x y hx hy hxb hyb
  rw [h y x hy hx hyb hxb, star_star]

theorem adjoint_sound : ∀ (n : Nat) (op : Oper R), Sound ctr n op → ∃ op' s t t', adjoint ctr n op = .ok op' ∧ Sound ctr n op' ∧
    Means (iface ctr n) (matrix ctr n op) op s t ∧ Means (iface ctr n) (matrix ctr n op') op' (flipShape s) t' ∧
    ConjTransposed (matrix ctr n op') (matrix ctr n op) (inPlaces s).length (outPlaces s).length := by
  intro n
  -- it is enough to find the adjoint, its shape and its matrix
  have reduce : ∀ (n : Nat) (op op' : Oper R) (s : List (List Letter)), Sound ctr n op → adjoint ctr n op = .ok op' →
      Sound ctr n op' → (iface ctr n).shape op = .ok s → (iface ctr n).shape op' = .ok (flipShape s) →
      ConjTransposed (matrix ctr n op') (matrix ctr n op) (inPlaces s).length (outPlaces s).length →
      ∃ op' s t t', adjoint ctr n op = .ok op' ∧ Sound ctr n op' ∧
        Means (iface ctr n) (matrix ctr n op) op s t ∧ Means (iface ctr n) (matrix ctr n op') op' (flipShape s) t' ∧
        ConjTransposed (matrix ctr n op') (matrix ctr n op) (inPlaces s).length (outPlaces s).length := by
    intro n op op' s h1 h2 h3 h4 h5 h6
    obtain ⟨s1, t, k⟩ := means_sound ctr n op h1
    obtain ⟨s2, t', k'⟩ := means_sound ctr n op' h3
    rw [k.shape] at h4
    cases h4
    rw [k'.shape] at h5
    cases h5
    exact ⟨op', _, t, t', h2, h3, k, k', h6⟩
  induction n with
  | zero => intro op h; exact absurd h (by cases op <;> simp [Sound])
  | succ n ih =>
    intro op h
    cases op with
    | imm _ _ => exact absurd h (by simp [Sound])
    | cctrl _ _ _ => exact absurd h (by simp [Sound])
    | pure p q =>
      have h' := h
      rw [Sound] at h'
      by_cases hsa : p.selfAdj = true
      · obtain ⟨k1, k2⟩ := h'.1.herm hsa
        refine reduce _ _ (.pure p q) p.shape h ?_ h rfl (by rw [k1]; rfl) k2
        show adjPure p q = _
        unfold adjPure
        rw [if_pos hsa]
      · cases q with
        | none =>
          obtain ⟨p', k1, k2, k3, k4, k5⟩ := adjPure_spec h'.1 (by simpa using hsa)
          exact reduce _ _ (.pure p' none) p.shape h k1 (by rw [Sound]; exact ⟨k2, fun _ e => by cases e⟩) rfl (by rw [← k3]; rfl) k5
        | some p' =>
          obtain ⟨k1, k2, k3⟩ := h'.2 p' rfl
          refine reduce _ _ (.pure p' (some p)) p.shape h ?_ ?_ rfl (by rw [← k2]; rfl) k3
          · show adjPure p (some p') = _
            unfold adjPure
            rw [if_neg hsa]
          · rw [Sound]
            refine ⟨k1, fun p1 e => ?_⟩
            cases e
            refine ⟨h'.1, by rw [k2, flipShape_flipShape], ?_⟩
            rw [k2, inPlaces_flip, outPlaces_flip]
            exact conjTransposed_symm k3
    | ctrl data s sa ov =>
      have h' := h
      rw [Sound] at h'
      cases ov with
      | some data' =>
        obtain ⟨k1, k2, k3⟩ := h'.2 data' rfl
        refine reduce _ _ (.ctrl data' s sa (some data)) s h rfl ?_ rfl (by rw [k1]; rfl) k3
        rw [Sound]
        refine ⟨k2, fun d e => ?_⟩
        cases e
        refine ⟨k1, h'.1, ?_⟩
        have := conjTransposed_symm k3
        have e1 : inPlaces s = outPlaces s := by rw [← outPlaces_flip, k1]
        rwa [e1] at this ⊢
      | none =>
        cases sa with
        | true =>
          obtain ⟨k1, k2⟩ := h'.1.herm rfl
          exact reduce _ _ (.ctrl data s true none) s h rfl h rfl (by rw [k1]; rfl) k2
        | false =>
          obtain ⟨data', k1, k2, k3⟩ := adjCtrl_spec h'.1
          exact reduce _ _ (.ctrl data' (flipShape s) false none) s h k1 (by rw [Sound]; exact ⟨k2, fun _ e => by cases e⟩) rfl rfl k3
    | circ c =>
      have h' := h
      rw [Sound] at h'
      obtain ⟨h1, ⟨s, h2⟩, h3, h4⟩ := h'
      have hm : Circ.OpsMean (iface ctr n) (matrix ctr n) c := fun p hp => by
        obtain ⟨j1, j2, s, j3, j4⟩ := h3 p hp
        obtain ⟨s', t, j5⟩ := means_sound ctr n p.2.op j1
        rw [j5.shape] at j3
        cases j3
        exact ⟨_, t, j5, j4, j2⟩
      have ha : Circ.OpsAdjoint (iface ctr n) (matrix ctr n) (adjoint ctr n) c := fun p hp => by
        obtain ⟨op', s, t, t', k1, -, k2, k3, k4⟩ := ih p.2.op (h3 p hp).1
        exact ⟨s, t, op', t', k1, k2, k3, k4⟩
      obtain ⟨c', a1, a2, a3, a4, a5, a6⟩ := Circ.means_adjoint h1 h2 hm ha h4
      refine reduce _ _ (.circ c') s h ?_ ?_ h2 a4 a6
      · show (Circ.adjoint (iface ctr n) (adjoint ctr n) c).map _ = _
        rw [a1]; rfl
      · rw [Sound]
        refine ⟨a3, ⟨_, a4⟩, fun p hp => ?_, by rw [a2]; exact Circ.maxTime_flip_times h4⟩
        obtain ⟨s, t, b1, b2, b3⟩ := a5 p hp
        refine ⟨?_, b3, s, b1.shape, b2⟩
        rw [a2] at hp
        obtain ⟨p0, hp0, rfl⟩ := List.mem_map.1 hp
        obtain ⟨op', s, t, t', k1, k2, -⟩ := ih p0.2.op (h3 p0 hp0).1
        have : Circ.adjD (adjoint ctr n) p0.2.op = op' := by unfold Circ.adjD; rw [k1]
        show Sound ctr n (Circ.adjD (adjoint ctr n) p0.2.op)
        rw [this]; exact k2
    | sup terms s =>
      have h' := h
      rw [Sound] at h'
      obtain ⟨h1, h2⟩ := h'
      obtain ⟨c0, op0, l, s0, e1, e2, e3, e4⟩ := newSup_ok.1 h1
      obtain rfl : s = openCtrl s0 := by cases e4; rfl
      have hadj : ∀ p ∈ terms, ∃ t', adjoint ctr n p.2 = .ok (Circ.adjD (adjoint ctr n) p.2) ∧ Sound ctr n (Circ.adjD (adjoint ctr n) p.2) ∧
          ∃ s, (iface ctr n).shape p.2 = .ok s ∧
            Means (iface ctr n) (matrix ctr n (Circ.adjD (adjoint ctr n) p.2)) (Circ.adjD (adjoint ctr n) p.2) (flipShape s) t' ∧
            ConjTransposed (matrix ctr n (Circ.adjD (adjoint ctr n) p.2)) (matrix ctr n p.2) (inPlaces s).length (outPlaces s).length := fun p hp => by
        obtain ⟨op', s, t, t', k1, k2, k3, k4, k5⟩ := ih p.2 (h2 p hp)
        have : Circ.adjD (adjoint ctr n) p.2 = op' := by unfold Circ.adjD; rw [k1]
        rw [this]
        exact ⟨t', k1, k2, s, k3.shape, k4, k5⟩
      have hmap : terms.mapM (fun p => (adjoint ctr n p.2).map fun op' => (star p.1, op')) =
          .ok (terms.map fun p => (star p.1, Circ.adjD (adjoint ctr n) p.2)) := mapM_ok fun p hp => by
        obtain ⟨t', k1, -⟩ := hadj p hp
        rw [k1]; rfl
      have hsup : newSup (iface ctr n) (terms.map fun p => (star p.1, Circ.adjD (adjoint ctr n) p.2)) =
          .ok (.sup (terms.map fun p => (star p.1, Circ.adjD (adjoint ctr n) p.2)) (flipShape (openCtrl s0))) := by
        rw [newSup_ok]
        refine ⟨star c0, Circ.adjD (adjoint ctr n) op0, l.map fun p => (star p.1, Circ.adjD (adjoint ctr n) p.2), flipShape s0, by rw [e1]; rfl, ?_, ?_, by
          rw [openCtrl_flip]⟩
        · obtain ⟨t', -, -, s, k1, k2, -⟩ := hadj (c0, op0) (by rw [e1]; simp)
          rw [e2] at k1
          cases k1
          exact k2.shape
        · intro p hp
          obtain ⟨p0, hp0, rfl⟩ := List.mem_map.1 hp
          obtain ⟨t', -, -, s, k1, k2, -⟩ := hadj p0 hp0
          obtain ⟨s', j1, j2, j3, -, j4⟩ := supCheck_ok.1 (e3 p0 hp0)
          rw [k1] at j1
          cases j1
          exact supCheck_ok.2 ⟨flipShape s, k2.shape, by rw [inPlaces_flip, inPlaces_flip, j3],
            by rw [outPlaces_flip, outPlaces_flip, j2], k2.pure, by simpa [flipShape] using j4⟩
      refine reduce _ _ (.sup (terms.map fun p => (star p.1, Circ.adjD (adjoint ctr n) p.2)) (flipShape (openCtrl s0))) (openCtrl s0) h ?_ ?_ rfl rfl ?_
      · show adjOf (iface ctr n) (adjoint ctr n) (.sup terms _) = _
        unfold adjOf
        dsimp only
        rw [hmap]
        exact hsup
      · rw [Sound]
        refine ⟨hsup, fun p hp => ?_⟩
        obtain ⟨p0, hp0, rfl⟩ := List.mem_map.1 hp
        exact (hadj p0 hp0).choose_spec.2.1
      · intro x y hx hy hxb hyb
        show ((terms.map fun p => (star p.1, Circ.adjD (adjoint ctr n) p.2)).map fun p => p.1 * matrix ctr n p.2 (x ++ y)).sum =
          star (terms.map fun p => p.1 * matrix ctr n p.2 (y ++ x)).sum
        rw [List.map_map]
        refine sum_conj terms (fun op => matrix ctr n op (y ++ x)) (fun op => matrix ctr n (Circ.adjD (adjoint ctr n) op) (x ++ y)) fun p hp => ?_
        obtain ⟨t', -, -, s, k1, -, k3⟩ := hadj p hp
        obtain ⟨s', j1, j2, j3, -⟩ := supCheck_ok.1 (e3 p hp)
        rw [k1] at j1
        cases j1
        rw [inPlaces_openCtrl] at hx
        rw [outPlaces_openCtrl] at hy
        exact k3 x y (by rw [hx, j2]) (by rw [hy, j3]) hxb hyb

/-- **C38.**  The adjoint of an operation exists, is again such an operation, has the shape read backwards and is
converted to the conjugate transposed tensor. -/
theorem c38_operation {n : Nat} {op : Oper R} (h : Sound ctr n op) :
    ∃ op' s t t', adjoint ctr n op = .ok op' ∧ Sound ctr n op' ∧
      (iface ctr n).shape op = .ok s ∧ (iface ctr n).shape op' = .ok (flipShape s) ∧
      (iface ctr n).tensor op = .ok t ∧ (iface ctr n).tensor op' = .ok t' ∧
      t.shape = some (List.replicate ((outPlaces s).length + (inPlaces s).length) (some 2)) ∧
      t'.shape = some (List.replicate ((inPlaces s).length + (outPlaces s).length) (some 2)) ∧
      ConjTransposed t'.tot t.tot (inPlaces s).length (outPlaces s).length := by
  obtain ⟨op', s, t, t', k1, k2, k3, k4, k5⟩ := adjoint_sound ctr n op h
  refine ⟨op', s, t, t', k1, k2, k3.shape, k4.shape, k3.tensor, k4.tensor, k3.dims, ?_, fun x y hx hy hxb hyb => ?_⟩
  · rw [k4.dims, outPlaces_flip, inPlaces_flip]
  · rw [k3.entries _ (Bits.append ⟨hy, hyb⟩ ⟨hx, hxb⟩), k4.entries _ ?_]
    · exact k5 x y hx hy hxb hyb
    · rw [outPlaces_flip, inPlaces_flip]; exact Bits.append ⟨hx, hxb⟩ ⟨hy, hyb⟩

/-- **C38.**  The adjoint of the adjoint is converted to the same tensor as the operation. -/
theorem c38_involution {n : Nat} {op : Oper R} (h : Sound ctr n op) :
    ∃ op' op'' s t t'', adjoint ctr n op = .ok op' ∧ adjoint ctr n op' = .ok op'' ∧
      (iface ctr n).shape op = .ok s ∧ (iface ctr n).shape op'' = .ok s ∧
      (iface ctr n).tensor op = .ok t ∧ (iface ctr n).tensor op'' = .ok t'' ∧ t''.shape = t.shape ∧
      ∀ idx, Bits idx ((outPlaces s).length + (inPlaces s).length) → t''.tot idx = t.tot idx := by
  obtain ⟨op', s, t, t', a1, a2, a3, a4, a5, a6, a7, a8, a9⟩ := c38_operation ctr h
  obtain ⟨op'', s', t1, t'', b1, b2, b3, b4, b5, b6, b7, b8, b9⟩ := c38_operation ctr a2
  rw [a4] at b3
  cases b3
  rw [a6] at b5
  cases b5
  rw [flipShape_flipShape] at b4
  rw [inPlaces_flip, outPlaces_flip] at b8 b9
  refine ⟨op', op'', s, t, t'', a1, b1, a3, b4, a5, b6, by rw [b8, a7], fun idx hi => ?_⟩
  obtain ⟨c1, c2⟩ := hi.split
  have := b9 (idx.take (outPlaces s).length) (idx.drop (outPlaces s).length) c1.1 c2.1 c1.2 c2.2
  rw [List.take_append_drop] at this
  rw [this, a9 _ _ c2.1 c1.1 c2.2 c1.2, star_star, List.take_append_drop]

end Oper

end Verif
