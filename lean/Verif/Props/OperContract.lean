import Verif.Lemmas.SolidOps
/-!
# C49: `contract` of a circuit computes its matrix
-/

set_option linter.unusedSectionVars false

namespace Verif

/-- Names of operations: strings other than those used by the library, and automatic names. -/
def PlainNames (ns : List Nm) : Prop :=
  ∀ n ∈ ns, (∃ s, n = .str s ∧ s ≠ "*" ∧ s ≠ "#") ∨ ∃ t qs, n = Circ.autoName t qs

theorem PlainNames.tidy {ns : List Nm} (h : PlainNames ns) : TidyNames ns :=
  tidyNames_of fun n hn => (h n hn).imp (fun ⟨s, hs, _⟩ => ⟨s, hs⟩) id

namespace TVal

variable {R : Type} [CommSemiring R] [StarRing R]

/-- The network made of a circuit of solid operations is solid. -/
theorem solid_circuit {α : Type} {I : OpsIface α (TVal R)} {c : Circ α} {tn : TN (TVal R)} {d : Nat} (h : c.convertPure I = .ok tn)
    (hn : PlainNames (Dict.keys c)) (hb : ∀ p ∈ c, Circ.BasisSingle I p.2.op)
    (hc : ∀ p ∈ c, ∀ s t, I.shape p.2.op = .ok s → I.tensor p.2.op = .ok t →
      t.shape = some (List.replicate ((outPlaces s).length + (inPlaces s).length) (some 2)) ∧ Solid d t) : Solid (d + 1) (ofTN tn) ∧ Tucked (ofTN tn) := by
  have hi := Circ.convertPure_net h
  obtain ⟨hA1, hA2⟩ := Circ.convertPure_moor hb h
  have hkeys : ∀ n ∈ tn.nodes.keys, n ∈ Dict.keys c := fun n hn => by
    obtain ⟨r, hr⟩ := Dict.exists_get? hn
    obtain ⟨p, hp, rfl, -⟩ := hi.nodes n r hr
    exact List.mem_map.2 ⟨p, hp, rfl⟩
  have hnode : ∀ p ∈ tn.nodes, ∃ t, p.2.ten = some t ∧ t.shape = some (p.2.legs.map tn.edim) ∧ Solid d t := fun p hp => by
    have hr := Dict.get?_of_mem hi.cons.nodes_nodup hp
    obtain ⟨q, hq, -, t, s, h1, h2, h3, h4⟩ := hi.nodes p.1 p.2 hr
    obtain ⟨h5, h6⟩ := hc q hq s t h3 h2
    refine ⟨t, h1, ?_, h6⟩
    rw [h5, edim_eq_two, h4]
    intro e he
    obtain ⟨r', hr'⟩ := Dict.exists_get? (hi.cons.legs_exist p.1 p.2 hr e he)
    exact ⟨r', hr', (hi.dims e r' hr').1⟩
  refine ⟨solid_net (expandable_circuit h hn.tidy fun p hp s t hs ht => ⟨(hc p hp s t hs ht).1, (hc p hp s t hs ht).2.flat⟩)
    hA1 (fun e he => (hA2 e he).imp id (Or.imp id False.elim)) (fun n r hr => hnode (n, r) (Dict.mem_of_get? hr)) ?_,
    fun s hs x hx _ => ?_⟩
  · refine ⟨fun n hn' => ?_, fun x hx => ?_, fun n r t hr' _ _ e he => Or.inl ?_⟩
    · rcases hn n (hkeys n hn') with ⟨s, rfl, h1, h2⟩ | ⟨t, qs, rfl⟩
      · simp [Nm.tup, h1, h2]
      · obtain ⟨x, hx, -⟩ := tup_auto t qs
        rw [hx]; simp
    · obtain ⟨t, i, q, rfl⟩ := hi.wires x hx
      rw [tup_wire]; simp
    · rcases hn n (hkeys n (Dict.mem_keys_of_get? hr')) with ⟨s, rfl, h1, h2⟩ | ⟨t, qs, rfl⟩
      · have : e = .str s := by simpa [Nm.tup] using he.symm
        subst this
        refine ⟨by simp [Nm.tup], fun hc => ?_⟩
        obtain ⟨t, i, q, h⟩ := hi.wires _ hc
        simp [Circ.wireName, Nm.triple] at h
      · obtain ⟨x, hx, -⟩ := tup_auto t qs
        rw [hx] at he; simp at he
  · obtain rfl := ofTN_inj hs
    obtain ⟨t, i, q, rfl⟩ := hi.wires x hx
    rw [tup_wire]; simp

end TVal

namespace Oper

variable {R : Type} [CommSemiring R] [StarRing R]

open TVal

variable {ctr : TVal R → Except Err (Arr R)}

theorem basisSingle_of_means {I : OpsIface (Oper R) (TVal R)} {M : List Nat → R} {op : Oper R} {s : List (List Letter)} {t : TVal R}
    (h : Means I M op s t) : Circ.BasisSingle I op := fun b k s' hb hs' => by
  have := h.shape
  rw [hs'] at this; cases this
  exact (h.basis b k hb).2.1

/-- The tensor of a controlled circuit or operation is solid. -/
theorem solid_controlled (hctr : Evaluates ctr) : ∀ (n : Nat) {op op' : Oper R} {cond : Bool} {t : TVal R}, Built ctr n true op →
    controlled ctr (iface ctr n) op cond = .ok op' → (iface ctr n).tensor op' = .ok t → Solid n t
  | 0, op, _, _, _, h, _, _ => by cases op <;> exact absurd h (by simp [Built])
  | n + 1, op, op', cond, t, h, hop, ht => by
    obtain ⟨s, -, -, hc⟩ := means_built hctr (n + 1) true op h
    obtain ⟨-, -, op2, t2, e1, e2⟩ := hc rfl cond
    rw [hop] at e1; cases e1
    have e3 := e2.tensor
    rw [ht] at e3; cases e3
    rcases controlled_cases hop with ⟨a, s', rfl⟩ | ⟨c, s', rfl, rfl⟩
    · exact (solid_convertCtrl (d := a.shape) (by rw [TVal.shape]) ht e2.dims (solid_ten 0 a)).mono (by omega)
    · rw [Built] at h
      change tensorOf ctr (iface ctr n) (.cctrl c s' cond) = .ok t at ht
      unfold tensorOf at ht
      dsimp only at ht
      split at ht
      · cases ht
      · next c' hc' =>
        have ops := cctrlLoop_ops hc'
        cases hcv : Circ.convertPure (iface ctr n) c' with
        | error e => rw [hcv] at ht; cases ht
        | ok tn =>
          rw [hcv] at ht
          cases ht
          refine (solid_circuit hcv (fun m hm => ?_) (fun p' hp' => ?_) fun p' hp' s2 t2 hs2 ht2 => ?_).1
          · obtain ⟨p', hp', rfl⟩ := List.mem_map.1 hm
            rcases ops p' hp' with h | h
            · simp at h
            · exact Or.inr h.1
          · rcases ops p' hp' with h' | ⟨-, p, hp, h2⟩
            · simp at h'
            · obtain ⟨j1, -, -, -, -⟩ := h.2.2.1 p hp
              obtain ⟨s3, -, -, hc3⟩ := means_built hctr n true p.2.op j1
              obtain ⟨-, -, op3, t3, f1, f2⟩ := hc3 rfl cond
              rw [h2] at f1; cases f1
              exact basisSingle_of_means f2
          · rcases ops p' hp' with h' | ⟨-, p, hp, h2⟩
            · simp at h'
            · obtain ⟨j1, -, -, -, -⟩ := h.2.2.1 p hp
              obtain ⟨s3, -, -, hc3⟩ := means_built hctr n true p.2.op j1
              obtain ⟨-, -, op3, t3, f1, f2⟩ := hc3 rfl cond
              rw [h2] at f1; cases f1
              have f3 := f2.tensor
              rw [ht2] at f3; cases f3
              have f4 := f2.shape
              rw [hs2] at f4; cases f4
              exact ⟨f2.dims, solid_controlled hctr n j1 h2 ht2⟩

/-- The tensor of a controlled circuit is solid. -/
theorem solid_cctrl (hctr : Evaluates ctr) {n : Nat} {b : Bool} {c : List (Nm × OpRec (Oper R))} {s : List (List Letter)} {cond : Bool} {t : TVal R}
    (h : Built ctr n b (.cctrl c s cond)) (ht : (iface ctr n).tensor (.cctrl c s cond) = .ok t) : Solid n t ∧ Tucked t := by
  match n, h with
  | 0, h => exact absurd h (by simp [Built])
  | n + 1, h =>
    rw [Built] at h
    obtain ⟨rfl, ⟨s0, h2, rfl⟩, h3, h5, h6⟩ := h
    have ht' : tensorOf ctr (iface ctr n) (.cctrl c ([.c] :: s0) cond) = .ok t := ht
    unfold tensorOf at ht'
    dsimp only at ht'
    split at ht'
    · cases ht'
    · next c' hc' =>
      have ops := cctrlLoop_ops hc'
      have key : ∀ p' ∈ c', ∃ p ∈ c, Built ctr n true p.2.op ∧ controlled ctr (iface ctr n) p.2.op cond = .ok p'.2.op ∧
          ∃ M s t, Means (iface ctr n) M p'.2.op s t := fun p' hp' => by
        rcases ops p' hp' with h' | ⟨-, p, hp, h2⟩
        · simp at h'
        · obtain ⟨j1, -, -, -, -⟩ := h3 p hp
          obtain ⟨s3, -, -, hc3⟩ := means_built hctr n true p.2.op j1
          obtain ⟨-, -, op3, t3, f1, f2⟩ := hc3 rfl cond
          rw [h2] at f1; cases f1
          exact ⟨p, hp, j1, h2, _, _, _, f2⟩
      cases hcv : Circ.convertPure (iface ctr n) c' with
      | error e => rw [hcv] at ht'; cases ht'
      | ok tn =>
        rw [hcv] at ht'
        cases ht'
        refine solid_circuit hcv (fun m hm => ?_) (fun p' hp' => ?_) fun p' hp' s2 t2 hs2 ht2 => ?_
        · obtain ⟨p', hp', rfl⟩ := List.mem_map.1 hm
          rcases ops p' hp' with h | h
          · simp at h
          · exact Or.inr h.1
        · obtain ⟨p, -, -, -, M, s, t, f2⟩ := key p' hp'
          exact basisSingle_of_means f2
        · obtain ⟨p, -, j1, h2, M, s, t, f2⟩ := key p' hp'
          have f3 := f2.tensor
          rw [ht2] at f3; cases f3
          have f4 := f2.shape
          rw [hs2] at f4; cases f4
          exact ⟨f2.dims, solid_controlled hctr n j1 h2 ht2⟩

/-- The data of gates are arrays, sums, or networks of these with harmless names; the names in circuits are plain. -/
def Plain (k : Nat) : Nat → Oper R → Prop
  | 0, _ => True
  | _ + 1, .imm _ _ => True
  | _ + 1, .pure p _ => Solid k p.data ∧ Tucked p.data
  | _ + 1, .ctrl data _ _ _ => Solid k data
  | n + 1, .circ c => PlainNames (Dict.keys c) ∧ ∀ p ∈ c, Plain k n p.2.op
  | _ + 1, .cctrl _ _ _ => True
  | n + 1, .sup terms _ => ∀ p ∈ terms, Plain k n p.2

/-- The tensor of a plain operation is solid. -/
theorem solid_tensor (hctr : Evaluates ctr) {k : Nat} : ∀ (n : Nat) {b : Bool} {op : Oper R} {t : TVal R}, Built ctr n b op →
    Plain k n op → (iface ctr n).tensor op = .ok t → Solid (2 * n + k) t ∧ Tucked t
  | 0, _, op, _, h, _, _ => by cases op <;> exact absurd h (by simp [Built])
  | n + 1, _, .imm _ _, _, h, _, _ => absurd h (by simp [Built])
  | n + 1, _, .pure p q, t, _, hk, ht => by
    rw [Plain] at hk
    cases ht
    exact ⟨hk.1.mono (by omega), hk.2⟩
  | n + 1, b, .ctrl data s sa ov, t, h, hk, ht => by
    rw [Plain] at hk
    obtain ⟨s', t', hm, -⟩ := means_built hctr _ _ _ h
    have := hm.tensor
    rw [ht] at this; cases this
    rw [Built] at h
    have hd := h.1.dims
    rw [replicate_some] at hd
    exact ⟨(solid_convertCtrl hd ht hm.dims hk).mono (by omega), tucked_convertCtrl h.1 ht⟩
  | n + 1, b, .circ c, t, h, hk, ht => by
    rw [Plain] at hk
    rw [Built] at h
    cases hcv : Circ.convertPure (iface ctr n) c with
    | error e =>
      change (Circ.convertPure (iface ctr n) c).map _ = _ at ht
      rw [hcv] at ht; cases ht
    | ok tn =>
      change (Circ.convertPure (iface ctr n) c).map _ = _ at ht
      rw [hcv] at ht; cases ht
      refine (solid_circuit (d := 2 * n + k) hcv hk.1 (fun p hp => ?_) fun p hp s t hs ht => ?_).imp (fun h => h.mono (by omega)) id
      · obtain ⟨j1, -⟩ := h.2.2.1 p hp
        obtain ⟨s', t', hm, -⟩ := means_built hctr _ _ _ j1
        exact basisSingle_of_means hm
      · obtain ⟨j1, -⟩ := h.2.2.1 p hp
        obtain ⟨s', t', hm, -⟩ := means_built hctr _ _ _ j1
        have f1 := hm.tensor
        have f2 := hm.shape
        rw [ht] at f1; cases f1
        rw [hs] at f2; cases f2
        exact ⟨hm.dims, solid_tensor hctr n j1 (hk.2 p hp) ht |>.1⟩
  | n + 1, b, .cctrl c s cond, t, h, _, ht => (solid_cctrl hctr h ht).imp (fun h => h.mono (by omega)) id
  | n + 1, b, .sup terms s, t, h, hk, ht => by
    rw [Plain] at hk
    rw [Built] at h
    obtain ⟨c0, op0, l, s0, h1, h2, h3, h4⟩ := newSup_ok.1 h.1
    have key : ∀ p ∈ terms, ∃ t, (iface ctr n).tensor p.2 = .ok t ∧
        t.shape = some (List.replicate ((outPlaces s0).length + (inPlaces s0).length) (some 2)) ∧ TVal.Whole t ∧
        ∀ idx, Bits idx ((outPlaces s0).length + (inPlaces s0).length) → t.tot idx = matrix ctr n p.2 idx := fun p hp => by
      obtain ⟨s, t, k, -⟩ := means_built hctr _ _ _ (h.2.1 p hp)
      obtain ⟨s', j1, j2, j3, -⟩ := supCheck_ok.1 (h3 p hp)
      rw [k.shape] at j1
      cases j1
      exact ⟨t, k.tensor, by rw [k.dims, j2, j3], k.whole, fun idx hi => k.entries idx (by rw [j2, j3]; exact hi)⟩
    obtain ⟨ts, g1, g2, g3, -⟩ := supLoop_spec (I := iface ctr n) (M := matrix ctr n) rfl terms 0 {} (fun c hc => by cases hc) key (by simp) rfl
    have ht' : (supLoop (iface ctr n) terms 0 {}).map (fun ts => TVal.sum ts.terms) = .ok t := ht
    rw [g1] at ht'
    cases ht'
    refine ⟨?_, tucked_sum _⟩
    refine (Solid.sum (d := 2 * n + k + 1) (List.replicate ((outPlaces s0).length + (inPlaces s0).length) 2) ?_ (fun q hq => ?_) fun q hq => ?_).mono
      (by omega)
    · intro e
      rw [e, h1] at g3
      simp at g3
    · rcases supLoop_mem terms 0 {} g1 q hq with hq | ⟨p, hp, t, e1, e2⟩
      · cases hq
      · obtain ⟨t', f1, f2, -⟩ := key p hp
        rw [e1] at f1; cases f1
        rw [replicate_some] at f2
        obtain ⟨k1, k2⟩ := solid_tensor hctr n (h.2.1 p hp) (hk p hp) e1
        exact (solid_mul (nodeName_int 0) (nodeName_int 1) (by decide) f2 (sb := []) (by simp [scalar, shape]) (by intro k d d' _ h; simp at h) k1
          (solid_ten _ _) (k2.apart _ _) (apart_ten _ _ _) e2).1
    · rw [(g2 q hq).1, replicate_some]

variable {L : Type} [AddCommMonoid L]

/-- **C49.**  Converting an operation to a tensor and contracting it succeeds, and gives the array of the entries of its
matrix, through `expand`, `complete_delta`, the order finder, the compiler and the contractor.  Partial: no operation of
a circuit is called `'*'` or `'#'`, and the data of gates have harmless names. -/
theorem c49_operation_partial (hctr : Evaluates ctr) {B0 B : Backend L R} (h0 : B0.Sound) (hR0 : B0.Reliable) (hB : B.Sound) (hR : B.Reliable)
    {n k K : Nat} {b : Bool} {op : Oper R} (h : Built ctr n b op) (hp : Plain k n op) (hk : 2 * n + k ≤ K) :
    ∃ s t r, (iface ctr n).shape op = .ok s ∧ (iface ctr n).tensor op = .ok t ∧ TVal.contract B0 K B t = some r ∧
      r.shape = List.replicate ((outPlaces s).length + (inPlaces s).length) 2 ∧
      ∀ idx, Bits idx ((outPlaces s).length + (inPlaces s).length) → r.get idx = matrix ctr n op idx := by
  obtain ⟨s, t, hm, -⟩ := means_built hctr n b op h
  have hd := hm.dims
  rw [replicate_some] at hd
  obtain ⟨r, h1, h2, h3⟩ := c49_nested h0 K hB ((solid_tensor hctr n h hp hm.tensor).1.evaluable h0 hR0 hB hR hk) _ hd
  refine ⟨s, t, r, hm.shape, hm.tensor, h1, h2, fun idx hi => ?_⟩
  rw [h3 idx (hi.inRange)]
  exact hm.entries idx hi

/-- The data of the adjoint of a gate given by an array. -/
theorem solid_adjPure {p p' : PureRec R} {a : Arr R} (ha : p.data = .ten (some a)) (hp : PureOk p) (hsa : p.selfAdj = false)
    (h : adjPure p none = .ok (.pure p' none)) : Solid 1 p'.data ∧ Tucked p'.data := by
  have hd := hp.dims
  rw [ha, replicate_some] at hd
  unfold adjPure at h
  rw [hsa, ha] at h
  simp only [Bool.false_eq_true, ↓reduceIte, TVal.conj] at h
  rw [indicesWith_endsO_plain hp.words, indicesWith_startsI_plain hp.words] at h
  split at h
  · cases h
  · split at h
    · cases h
    · next t' ht' =>
      unfold newPure at h
      split at h
      · cases h
        refine solid_transpose (nodeName_int 0) (sh := List.replicate ((outPlaces p.shape).length + (inPlaces p.shape).length) 2) ?_ (solid_ten 0 _)
          (apart_ten _ _ _) ?_ ht'
        · rw [← hd, TVal.shape, TVal.shape]; rfl
        · have := axes_perm 0 (outPlaces p.shape).length (inPlaces p.shape).length
          simpa [List.range_eq_range'] using this
      · cases h

/-! ### A concrete case -/

/-- The backend of the example, with the default order finder. -/
def exEngine : Backend Nat GaussianInt where
  glue := stdGlue
  memory := 16
  finder := defaultFinder id fun _ _ => 0
  srt := id
  engine := plainEngine
  ex := fun _ => 1

theorem exEngine_sound : exEngine.Sound := ⟨stdGlue_sound, fun l => List.Perm.refl l, plainEngine_sound⟩

theorem exEngine_reliable : exEngine.Reliable :=
  Backend.reliable_default exEngine_sound rfl (by intros; show 0 * 3 * 2 ^ 4 ≤ _; omega)

/-- The state `|0⟩`. -/
def exState : PureRec GaussianInt :=
  { data := arrVal [2] fun l => if l = [0] then 1 else 0, shape := [[.o]], mark := some (true, 0) }

/-- The measurement of 1. -/
def exMeas : PureRec GaussianInt :=
  { data := arrVal [2] fun l => if l = [1] then 1 else 0, shape := [[.i]], mark := some (false, 1) }

theorem exState_ok : PureOk exState := by
  refine ⟨by decide, by decide, by rw [exState, arrVal, TVal.Whole]; trivial, fun b k h => ?_, (fun h => by cases h)⟩
  cases h
  exact ⟨by decide, rfl, by decide +kernel⟩

theorem exMeas_ok : PureOk exMeas := by
  refine ⟨by decide, by decide, by rw [exMeas, arrVal, TVal.Whole]; trivial, fun b k h => ?_, (fun h => by cases h)⟩
  cases h
  exact ⟨by decide, rfl, by decide +kernel⟩

/-- A circuit with a state, a superposition of gates, the adjoint of a gate, a controlled circuit, a circuit and a measurement. -/
def exRun (p : PureRec GaussianInt) : Oper GaussianInt :=
  .circ [(.str "s", ⟨.pure exState none, 0, [1]⟩), (.str "g", ⟨.sup [(2, .pure exG none), (⟨0, 1⟩, .pure exX none)] [[.i, .o]], 1, [1]⟩), (.str "d", ⟨.pure p none, 2, [1]⟩),
    (.str "h", ⟨.cctrl exCirc [[.c], [.i, .o], [.i, .o]] false, 3, [0, 1, 2]⟩), (.str "k", ⟨.circ exCirc, 4, [1, 2]⟩),
    (.str "m", ⟨.pure exMeas none, 5, [2]⟩)]

theorem exCirc_plain (n : Nat) : ∀ p ∈ exCirc, Plain 1 (n + 1) p.2.op := fun p hp => by
  simp only [exCirc, List.mem_cons, List.not_mem_nil, or_false] at hp
  rcases hp with rfl | rfl
  · rw [Plain]; exact ⟨solid_ten _ _, tucked_ten _⟩
  · rw [Plain]; exact solid_ten _ _

/-- The hypotheses of `c49_operation_partial` are met. -/
example : ∃ p, adjPure exG none = .ok (.pure p none) ∧ Built evalAll 3 false (exRun p) ∧ Plain 1 3 (exRun p) ∧
    ∃ t r, (iface evalAll 3).tensor (exRun p) = .ok t ∧ TVal.contract exEngine 7 exEngine t = some r ∧ r.shape = [2, 2, 2, 2] := by
  obtain ⟨p, h1, h2, h3, h4, -⟩ := adjPure_spec exG_ok rfl
  have h3 : p.shape = [[.i, .o]] := by rw [h3]; rfl
  have hsh : (iface (R := GaussianInt) evalAll 3).shape (exRun p) = .ok [[.i, .o], [.o], [.i]] := by
    obtain ⟨d, s, a, m⟩ := p
    cases h3
    exact (rfl : _ = (iface (R := GaussianInt) evalAll 3).shape (exRun exX)).trans (by decide +kernel)
  have hb : Built evalAll 3 false (exRun p) := by
    rw [exRun, Built]
    refine ⟨by show List.Nodup [Nm.str "s", .str "g", .str "d", .str "h", .str "k", .str "m"]; decide, ⟨_, hsh⟩, fun q hq => ?_,
      (fun h => by cases h)⟩
    simp only [List.mem_cons, List.not_mem_nil, or_false] at hq
    rcases hq with rfl | rfl | rfl | rfl | rfl | rfl
    · refine ⟨?_, by decide, _, rfl, rfl⟩
      rw [Built]; exact ⟨exState_ok, (fun h => by cases h)⟩
    · refine ⟨?_, by decide, _, rfl, rfl⟩
      rw [Built]
      refine ⟨rfl, fun q hq => ?_, (fun h => by cases h)⟩
      simp only [List.mem_cons, List.not_mem_nil, or_false] at hq
      rcases hq with rfl | rfl
      · rw [Built]; exact ⟨exG_ok, (fun h => by cases h)⟩
      · rw [Built]; exact ⟨exX_ok, (fun h => by cases h)⟩
    · refine ⟨?_, by show List.Nodup [1]; decide, [[.i, .o]], by rw [← h3]; rfl, rfl⟩
      rw [Built]; exact ⟨h2, (fun h => by cases h)⟩
    · refine ⟨?_, by decide, _, rfl, rfl⟩
      rw [Built]
      exact ⟨rfl, ⟨_, rfl, rfl⟩, exCirc_ops true 0, by decide, follows_pair (by decide)⟩
    · refine ⟨?_, by decide, _, rfl, rfl⟩
      rw [Built]
      exact ⟨by decide, ⟨_, rfl⟩, exCirc_ops false 0, (fun h => by cases h)⟩
    · refine ⟨?_, by decide, _, rfl, rfl⟩
      rw [Built]; exact ⟨exMeas_ok, (fun h => by cases h)⟩
  have hp : Plain 1 3 (exRun p) := by
    rw [exRun, Plain]
    refine ⟨fun n hn => Or.inl ?_, fun q hq => ?_⟩
    · replace hn : n ∈ [Nm.str "s", .str "g", .str "d", .str "h", .str "k", .str "m"] := hn
      simp only [List.mem_cons, List.not_mem_nil, or_false] at hn
      rcases hn with rfl | rfl | rfl | rfl | rfl | rfl <;> exact ⟨_, rfl, by decide, by decide⟩
    simp only [List.mem_cons, List.not_mem_nil, or_false] at hq
    rcases hq with rfl | rfl | rfl | rfl | rfl | rfl
    · rw [Plain]; exact ⟨solid_ten _ _, tucked_ten _⟩
    · rw [Plain]
      intro q hq
      simp only [List.mem_cons, List.not_mem_nil, or_false] at hq
      rcases hq with rfl | rfl <;> rw [Plain] <;> exact ⟨solid_ten _ _, tucked_ten _⟩
    · rw [Plain]; exact solid_adjPure (p := exG) rfl exG_ok rfl h1
    · rw [Plain]; trivial
    · rw [Plain]
      refine ⟨fun n hn => Or.inl ?_, exCirc_plain 0⟩
      replace hn : n ∈ [Nm.str "a", .str "b"] := hn
      simp only [List.mem_cons, List.not_mem_nil, or_false] at hn
      rcases hn with rfl | rfl <;> exact ⟨_, rfl, by decide, by decide⟩
    · rw [Plain]; exact ⟨solid_ten _ _, tucked_ten _⟩
  refine ⟨p, h1, hb, hp, ?_⟩
  obtain ⟨s, t, r, e1, e2, e3, e4, -⟩ := c49_operation_partial evalAll_evaluates exEngine_sound exEngine_reliable exEngine_sound exEngine_reliable hb hp (K := 7) (by omega)
  refine ⟨t, r, e2, e3, ?_⟩
  rw [hsh] at e1
  cases e1
  rw [e4]; decide

end Oper

end Verif
