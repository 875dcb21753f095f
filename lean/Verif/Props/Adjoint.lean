import Verif.Model.Adjoint
import Verif.Spec.Adjoint
import Verif.Lemmas.Duality
import Verif.Props.Convert
import Verif.Props.Conj
import Mathlib.NumberTheory.Zsqrtd.GaussianInt
/-!
# C38: the adjoint of a circuit
-/

set_option linter.unusedSectionVars false

namespace Verif

/-! ### Words read backwards -/

/-- Inputs and outputs exchanged. -/
def Port.flip : Port → Port
  | .inp => .out
  | .out => .inp

theorem Port.flip_inj {x y : Port} : x.flip = y.flip ↔ x = y := by cases x <;> cases y <;> decide

/-- A word read backwards. -/
def flipWord (w : List Port) : List Port := w.reverse.map Port.flip

theorem flipWord_append (w w' : List Port) : flipWord (w ++ w') = flipWord w' ++ flipWord w := by simp [flipWord]

theorem flipWord_letters (w : List Letter) :
    (w.reverse.map Letter.flip).flatMap Letter.ports = flipWord (w.flatMap Letter.ports) := by
  induction w with
  | nil => rfl
  | cons x w ih =>
    rw [List.reverse_cons, List.map_append, List.flatMap_append, ih, List.flatMap_cons, flipWord_append]
    congr 1
    cases x <;> rfl

theorem flipWord_connectable {w : List Port} (h : Connectable w) : Connectable (flipWord w) := by
  unfold Connectable flipWord at *
  rw [List.isChain_map, List.isChain_reverse]
  exact h.imp fun {a b} hab hc => hab (Port.flip_inj.1 hc).symm

theorem flipWord_head (w : List Port) : (flipWord w).head? = some .inp ↔ w.getLast? = some .out := by
  unfold flipWord
  rw [List.head?_map, List.head?_reverse]
  cases w.getLast? with
  | none => simp
  | some x => cases x <;> simp [Port.flip]

theorem flipWord_last (w : List Port) : (flipWord w).getLast? = some .out ↔ w.head? = some .inp := by
  unfold flipWord
  rw [List.getLast?_map, List.getLast?_reverse]
  cases w.head? with
  | none => simp
  | some x => cases x <;> simp [Port.flip]

theorem portsAt_flip {s : List (List Letter)} {qs : List Int} {q : Int} (hn : qs.Nodup) :
    portsAt (flipShape s) qs q = flipWord (portsAt s qs q) := by
  induction qs generalizing s with
  | nil => rfl
  | cons p qs ih =>
    cases s with
    | nil => rfl
    | cons w s =>
      obtain ⟨h1, h2⟩ := List.nodup_cons.1 hn
      have e : ∀ w : List Letter, ∀ s : List (List Letter), portsAt (w :: s) (p :: qs) q =
          (if p = q then w.flatMap Letter.ports else []) ++ portsAt s qs q := fun w s => by
        unfold portsAt
        by_cases h : p = q <;> simp [h]
      show portsAt ((w.reverse.map Letter.flip) :: flipShape s) (p :: qs) q = _
      rw [e, e, ih h2, flipWord_append]
      by_cases h : p = q
      · subst h
        rw [portsAt_nil h1, if_pos rfl, if_pos rfl, flipWord_letters]
        simp [flipWord]
      · rw [if_neg h, if_neg h]; simp [flipWord]

theorem inQubits_flip {s : List (List Letter)} {qs : List Int} (hn : qs.Nodup) :
    inQubits (flipShape s) qs = outQubits s qs := by
  unfold inQubits outQubits
  refine List.filter_congr fun q _ => ?_
  rw [portsAt_flip hn]
  exact decide_eq_decide.2 (flipWord_head _)

theorem outQubits_flip {s : List (List Letter)} {qs : List Int} (hn : qs.Nodup) :
    outQubits (flipShape s) qs = inQubits s qs := by
  unfold inQubits outQubits
  refine List.filter_congr fun q _ => ?_
  rw [portsAt_flip hn]
  exact decide_eq_decide.2 (flipWord_last _)

namespace Circ

variable {R : Type} [CommSemiring R] [StarRing R]
variable {α τ : Type} [HasShape τ] {sh : ShapeFn α} {ten : α → List Nat → R}

/-! ### The qubits present along a circuit -/

omit [StarRing R] in
theorem flows_of_wired : ∀ {l : Circ α} {Q : List Int}, Q.Nodup → Fitting sh l → (∀ q, Connectable (wireWord sh q l)) →
    (∀ q, (wireWord sh q l).head? = some .inp → q ∈ Q) → (∀ q, (wireWord sh q l).head? = some .out → q ∉ Q) →
    Flows Q (l.map fun p => actOf sh ten p.2) ∧
      ∀ q, q ∈ afterAll Q (l.map fun p => actOf sh ten p.2) ↔
        (wireWord sh q l).getLast? = some .out ∨ (wireWord sh q l = [] ∧ q ∈ Q)
  | [], Q, hQ, _, _, _, _ => by
    refine ⟨hQ, fun q => ?_⟩
    simp [afterAll, wireWord]
  | p :: l, Q, hQ, hf, hc, hi, ho => by
    obtain ⟨s, hs, hlen, hn⟩ := hf p (by simp)
    have hsd : shapeD sh p.2.op = s := by simp [shapeD, hs]
    have hin : ∀ q, q ∈ (actOf sh ten p.2).ins ↔ (portsAt s p.2.qubits q).head? = some .inp := fun q => by
      rw [← hsd]; exact mem_inQubits
    have hout : ∀ q, q ∈ (actOf sh ten p.2).outs ↔ (portsAt s p.2.qubits q).getLast? = some .out := fun q => by
      rw [← hsd]; exact mem_outQubits
    have hww : ∀ q, wireWord sh q (p :: l) = portsAt s p.2.qubits q ++ wireWord sh q l := fun q => by
      rw [wireWord_cons, hsd]
    have hch : ∀ q, (portsAt s p.2.qubits q ++ wireWord sh q l).IsChain (· ≠ ·) := fun q => hww q ▸ hc q
    have hmem : ∀ q, q ∈ (actOf sh ten p.2).after Q ↔
        (portsAt s p.2.qubits q).getLast? = some .out ∨ (portsAt s p.2.qubits q = [] ∧ q ∈ Q) := fun q => by
      rw [mem_after, hin, hout]
      cases hw : portsAt s p.2.qubits q with
      | nil => simp
      | cons x w =>
        have hh : (wireWord sh q (p :: l)).head? = some x := by rw [hww, hw]; rfl
        cases x with
        | inp => simp
        | out => have := ho q hh; simp [this]
    have ih := flows_of_wired (l := l) (Q := (actOf sh ten p.2).after Q) ?_ (fun p' hp' => hf p' (by simp [hp']))
      (fun q => ?_) (fun q hq => ?_) (fun q hq => ?_)
    · refine ⟨⟨hQ, fun q hq => ?_, fun q hq hqQ => ?_, inQubits_nodup hn, outQubits_nodup hn, ih.1⟩, fun q => ?_⟩
      · refine hi q ?_
        have := (hin q).1 hq
        rw [hww]
        cases hw : portsAt s p.2.qubits q with
        | nil => rw [hw] at this; cases this
        | cons x w => rw [hw] at this; exact this
      · have h1 := (hout q).1 hq
        rw [hin]
        cases hw : portsAt s p.2.qubits q with
        | nil => rw [hw] at h1; cases h1
        | cons x w =>
          cases x with
          | inp => rfl
          | out => exact absurd hqQ (ho q (by rw [hww, hw]; rfl))
      · show q ∈ afterAll ((actOf sh ten p.2).after Q) (l.map fun p => actOf sh ten p.2) ↔ _
        rw [ih.2 q, hmem, hww, List.getLast?_append]
        cases hl : wireWord sh q l with
        | nil => simp
        | cons y w' => simp
    · refine List.nodup_append.2 ⟨hQ.filter _, outQubits_nodup hn, fun a ha b hb hab => ?_⟩
      obtain ⟨h1, h2⟩ := List.mem_filter.1 ha
      simp only [decide_eq_true_eq] at h2
      subst hab
      have h3 := (hout a).1 hb
      cases hw : portsAt s p.2.qubits a with
      | nil => rw [hw] at h3; cases h3
      | cons x w =>
        cases x with
        | inp => exact h2 ((hin a).2 (by rw [hw]; rfl))
        | out => exact ho a (by rw [hww, hw]; rfl) h1
    · exact (List.isChain_append.1 (hch q)).2.1
    · rw [hmem]
      cases hl : (portsAt s p.2.qubits q).getLast? with
      | none =>
        rw [List.getLast?_eq_none_iff] at hl
        exact Or.inr ⟨hl, hi q (by rw [hww, hl]; exact hq)⟩
      | some x =>
        cases x with
        | out => exact Or.inl rfl
        | inp => exact absurd rfl (chain_cut (hch q) hl hq)
    · rw [hmem]
      rintro (h1 | ⟨h1, h2⟩)
      · exact chain_cut (hch q) h1 hq rfl
      · exact ho q (by rw [hww, h1]; exact hq) h2

/-! ### Conjugation and evolution -/

theorem star_apply (p : Act R) (Ψ : (Int → Nat) → R) (w : Int → Nat) :
    star (p.apply Ψ w) = Act.apply ⟨fun i => star (p.ten i), p.ins, p.outs⟩ (fun x => star (Ψ x)) w := by
  unfold Act.apply
  rw [star_sumOver]
  exact sumOver_congr fun x => by rw [star_mul']

theorem star_evolve (l : List (Act R)) (Ψ : (Int → Nat) → R) (w : Int → Nat) :
    star (evolve l Ψ w) = evolve (l.map fun p => ⟨fun i => star (p.ten i), p.ins, p.outs⟩) (fun x => star (Ψ x)) w := by
  induction l generalizing Ψ with
  | nil => rfl
  | cons p l ih =>
    rw [evolve, ih, List.map_cons, evolve]
    congr 1
    exact funext fun x => star_apply p Ψ x

/-! ### The adjoint circuit -/

/-- What is needed of the adjoint of an operation in a circuit. -/
def Adjointable (I : OpsIface α τ) (val : τ → List Nat → R) (ten : α → List Nat → R) (adj : α → Except Err α)
    (r : OpRec α) : Prop :=
  ∃ op' s, adj r.op = .ok op' ∧ I.shape r.op = .ok s ∧ I.shape op' = .ok (flipShape s) ∧ I.pure op' = .ok true ∧
    (∀ t, Convertible I val ten ⟨op', t, r.qubits⟩) ∧
    ConjTransposed (ten op') (ten r.op) (inQubits s r.qubits).length (outQubits s r.qubits).length

/-- The entry of the adjoint circuit. -/
def flipEntry (adj : α → α) (T : Int) (p : Nm × OpRec α) : Nm × OpRec α :=
  (autoName (T - p.2.time) p.2.qubits, ⟨adj p.2.op, T - p.2.time, p.2.qubits⟩)

theorem adjointLoop_ok {I : OpsIface α τ} {adj : α → Except Err α} {adj' : α → α} {T : Int} : ∀ {l acc : Circ α},
    (∀ p ∈ l, adj p.2.op = .ok (adj' p.2.op) ∧ ∃ s, I.shape (adj' p.2.op) = .ok s ∧ s.length = p.2.qubits.length ∧
      p.2.qubits.Nodup) → (acc ++ l.map (flipEntry adj' T)).keys.Nodup →
    adjointLoop I.shape adj T acc l = .ok (acc ++ l.map (flipEntry adj' T))
  | [], acc, _, _ => by simp [adjointLoop]
  | (n, r) :: l, acc, h, hk => by
    obtain ⟨h1, s, h2, h3, h4⟩ := h (n, r) (by simp)
    have happ : acc.append I.shape (adj' r.op) r.qubits (some (T - r.time)) = .ok (acc ++ [flipEntry adj' T (n, r)]) := by
      obtain ⟨c', hc'⟩ := (c40_append_ok (sh := I.shape) (c := acc) (t := some (T - r.time)) (n := none) h2).2 ⟨h4, h3.symm⟩
      rw [hc']
      congr 1
      refine c40_append_time_partial (fun p hp he => ?_) hc'
      rw [Dict.keys_append] at hk
      exact (List.nodup_append.1 hk).2.2 p.1 (List.mem_map.2 ⟨p, hp, rfl⟩) _ (by simp [Dict.keys, flipEntry]) he
    rw [adjointLoop]
    dsimp only at h1 ⊢
    rw [h1]
    dsimp only
    rw [happ]
    dsimp only
    rw [adjointLoop_ok (l := l) (fun p hp => h p (by simp [hp])) (by simpa using hk)]
    simp

/-- The function behind `~`. -/
def adjD (adj : α → Except Err α) (a : α) : α :=
  match adj a with
  | .ok b => b
  | .error _ => a

theorem flip_touch (f : α → α) (T q : Int) (c : Circ α) :
    (c.map (flipEntry f T)).filter (fun p => q ∈ p.2.qubits) = (c.filter fun p => q ∈ p.2.qubits).map (flipEntry f T) := by
  rw [List.filter_map]
  rfl

theorem flip_timeline {f : α → α} {T q : Int} {c l : Circ α} (h : Timeline c q l) :
    Timeline (c.map (flipEntry f T)) q (l.reverse.map (flipEntry f T)) := by
  refine ⟨?_, ?_⟩
  · rw [flip_touch]
    exact ((List.reverse_perm l).trans h.1).map _
  · rw [List.pairwise_map, List.pairwise_reverse]
    refine h.2.imp fun {a b} hab => ?_
    show T - b.2.time < T - a.2.time
    omega

theorem flip_word {f : α → α} {T q : Int} {l : Circ α}
    (h : ∀ p ∈ l, p.2.qubits.Nodup ∧ shapeD sh (f p.2.op) = flipShape (shapeD sh p.2.op)) :
    wireWord sh q (l.reverse.map (flipEntry f T)) = flipWord (wireWord sh q l) := by
  induction l with
  | nil => rfl
  | cons p l ih =>
    obtain ⟨h1, h2⟩ := h p (by simp)
    have e : wireWord sh q [flipEntry f T p] = flipWord (portsAt (shapeD sh p.2.op) p.2.qubits q) := by
      rw [← portsAt_flip h1, ← h2]
      simp [wireWord, flipEntry]
    rw [List.reverse_cons, List.map_append, wireWord_cons, flipWord_append, ← ih fun p hp => h p (by simp [hp]), ← e]
    simp [wireWord]

theorem exists_map {Q : List Int} (hn : Q.Nodup) : ∀ {x : List Nat}, x.length = Q.length → ∃ v : Int → Nat, Q.map v = x := by
  induction Q with
  | nil => intro x h; exact ⟨fun _ => 0, by cases x <;> simp_all⟩
  | cons q Q ih =>
    intro x h
    obtain ⟨h1, h2⟩ := List.nodup_cons.1 hn
    cases x with
    | nil => simp at h
    | cons a x =>
      obtain ⟨v, rfl⟩ := ih h2 (x := x) (by simpa using h)
      refine ⟨Function.update v q a, ?_⟩
      rw [List.map_cons, Function.update_self]
      congr 1
      exact List.map_congr_left fun y hy => Function.update_of_ne (fun e : y = q => h1 (e ▸ hy)) _ _

/-- C38 for circuits, with the adjoint circuit. -/
theorem c38_core {I : OpsIface α τ} {val : τ → List Nat → R} {adj : α → Except Err α} {c : Circ α} (hn : c.keys.Nodup)
    (hp : c.isPure I = .ok true) (hc : ∀ p ∈ c, Convertible I val ten p.2) (ha : ∀ p ∈ c, Adjointable I val ten adj p.2)
    (hz : (c.filter fun p => p.2.qubits = []).Pairwise fun p p' => p.2.time ≠ p'.2.time) :
    ∃ (c' : Circ α) (tn tn' : TN τ) (outQ inQ : List Int), c.adjoint I adj = .ok c' ∧
      c' = c.map (flipEntry (adjD adj) c.maxTime) ∧ c'.keys.Nodup ∧ outQ.Pairwise (· < ·) ∧ inQ.Pairwise (· < ·) ∧
      (∀ idx, tn.value0 val idx = tn.total val idx) ∧ (∀ idx, tn'.value0 val idx = tn'.total val idx) ∧ c'.isPure I = .ok true ∧
      c.convertPure I = .ok tn ∧ c'.convertPure I = .ok tn' ∧
      (∀ q l, Timeline c q l → (q ∈ outQ ↔ (wireWord I.shape q l).getLast? = some .out) ∧
        (q ∈ inQ ↔ (wireWord I.shape q l).head? = some .inp)) ∧
      (∀ q l, Timeline c' q l → (q ∈ inQ ↔ (wireWord I.shape q l).getLast? = some .out) ∧
        (q ∈ outQ ↔ (wireWord I.shape q l).head? = some .inp)) ∧
      tn.shape? = some (List.replicate (outQ.length + inQ.length) (some 2)) ∧
      tn'.shape? = some (List.replicate (inQ.length + outQ.length) (some 2)) ∧
      ConjTransposed (tn'.value0 val) (tn.value0 val) inQ.length outQ.length := by
  have hfit : Fitting I.shape c := fun p hp => by
    obtain ⟨s, h1, h2, h3, -⟩ := hc p hp
    exact ⟨s, h1, h2, h3⟩
  have hval := (c35_shape_iff hfit).1 (isPure_valid hp)
  have hadj : ∀ p ∈ c, ∃ s, I.shape p.2.op = .ok s ∧ adj p.2.op = .ok (adjD adj p.2.op) ∧
      I.shape (adjD adj p.2.op) = .ok (flipShape s) ∧ I.pure (adjD adj p.2.op) = .ok true ∧
      (∀ t, Convertible I val ten ⟨adjD adj p.2.op, t, p.2.qubits⟩) ∧
      ConjTransposed (ten (adjD adj p.2.op)) (ten p.2.op) (inQubits s p.2.qubits).length (outQubits s p.2.qubits).length :=
    fun p hp => by
      obtain ⟨op', s, h1, h2, h3, h4, h5, h6⟩ := ha p hp
      have : adjD adj p.2.op = op' := by unfold adjD; rw [h1]
      rw [this]
      exact ⟨s, h2, h1, h3, h4, h5, h6⟩
  have hsh : ∀ p ∈ c, p.2.qubits.Nodup ∧ shapeD I.shape (adjD adj p.2.op) = flipShape (shapeD I.shape p.2.op) := fun p hp => by
    obtain ⟨s, h1, -, h3, -⟩ := hadj p hp
    obtain ⟨s', -, -, h4⟩ := hfit p hp
    exact ⟨h4, by simp [shapeD, h1, h3]⟩
  set T := c.maxTime with hT
  set c' : Circ α := c.map (flipEntry (adjD adj) T) with hc'
  -- distinct names
  have hk : c'.keys.Nodup := by
    have : c'.keys = c.map fun p => autoName (T - p.2.time) p.2.qubits := by
      simp [hc', Dict.keys, flipEntry, Function.comp_def]
    rw [this, List.Nodup, List.pairwise_map]
    have hnd : c.Nodup := List.Nodup.of_map _ hn
    refine hnd.imp_of_mem fun {p p'} hm hm' hne he => ?_
    obtain ⟨h1, h2⟩ := autoName_inj he
    have ht : p.2.time = p'.2.time := by omega
    have hsymm : Std.Symm fun p p' : Nm × OpRec α => p.2.time ≠ p'.2.time := ⟨fun _ _ h => h.symm⟩
    cases hq : p.2.qubits with
    | nil =>
      exact hz.forall (List.mem_filter.2 ⟨hm, decide_eq_true hq⟩) (List.mem_filter.2 ⟨hm', decide_eq_true (h2 ▸ hq)⟩) hne ht
    | cons q qs =>
      obtain ⟨l, hl, -⟩ := hval q
      have h6 : l.Pairwise fun p p' => p.2.time ≠ p'.2.time := hl.2.imp fun h => ne_of_lt h
      exact h6.forall (hl.1.mem_iff.2 (List.mem_filter.2 ⟨hm, decide_eq_true (by simp [hq])⟩))
        (hl.1.mem_iff.2 (List.mem_filter.2 ⟨hm', decide_eq_true (by rw [← h2]; simp [hq])⟩)) hne ht
  have hloop : adjointLoop I.shape adj T [] c = .ok c' := by
    have := adjointLoop_ok (I := I) (adj := adj) (adj' := adjD adj) (T := T) (l := c) (acc := []) (fun p hp => by
      obtain ⟨s, h1, h2, h3, -⟩ := hadj p hp
      obtain ⟨s', h4, h5, h6⟩ := hfit p hp
      rw [h1] at h4; cases h4
      exact ⟨h2, _, h3, by simpa [flipShape] using h5, h6⟩) (by simpa using hk)
    simpa using this
  have hconv : ∀ p ∈ c', Convertible I val ten p.2 := fun p hp => by
    obtain ⟨p0, hp0, rfl⟩ := List.mem_map.1 hp
    obtain ⟨s, -, -, -, -, h5, -⟩ := hadj p0 hp0
    exact h5 _
  have hfit' : Fitting I.shape c' := fun p hp => by
    obtain ⟨s, h1, h2, h3, -⟩ := hconv p hp
    exact ⟨s, h1, h2, h3⟩
  have hpure : c'.isPure I = .ok true := by
    have hv : ∃ s, c'.shape I.shape = .ok s := (c35_shape_iff hfit').2 fun q => by
      obtain ⟨l, h1, h2⟩ := hval q
      refine ⟨_, flip_timeline h1, ?_⟩
      rw [flip_word fun p hp => hsh p (List.mem_filter.1 (h1.1.mem_iff.1 hp)).1]
      exact flipWord_connectable h2
    obtain ⟨s, hs⟩ := hv
    have hall : ∀ l : Circ α, (∀ p ∈ l, I.pure p.2.op = .ok true) →
        ∃ bs, l.mapM (fun p => I.pure p.2.op) = .ok bs ∧ bs.all id = true := by
      intro l
      induction l with
      | nil => intro _; exact ⟨[], rfl, rfl⟩
      | cons p l ih =>
        intro h
        obtain ⟨bs, h1, h2⟩ := ih fun p hp => h p (by simp [hp])
        refine ⟨true :: bs, ?_, by simpa using h2⟩
        rw [List.mapM_cons, h p (by simp), h1]
        rfl
    obtain ⟨bs, h1, h2⟩ := hall c' fun p hp => by
      obtain ⟨p0, hp0, rfl⟩ := List.mem_map.1 hp
      obtain ⟨s, -, -, -, h4, -⟩ := hadj p0 hp0
      exact h4
    unfold isPure isValid
    rw [hs]
    dsimp only
    rw [h1]
    dsimp only
    rw [h2]
  obtain ⟨tn, outQ, inQ, a1, a2, a3, a4, a5, at', a6⟩ := c36_circuit hn hp hc
  obtain ⟨tn', outQ', inQ', b1, b2, b3, b4, b5, bt', b6⟩ := c36_circuit hk hpure hconv
  have hword : ∀ q l, Timeline c q l → wireWord I.shape q (l.reverse.map (flipEntry (adjD adj) T)) =
      flipWord (wireWord I.shape q l) := fun q l hl =>
    flip_word fun p hp => hsh p (List.mem_filter.1 (hl.1.mem_iff.1 hp)).1
  have hmem : ∀ q, (q ∈ outQ' ↔ q ∈ inQ) ∧ (q ∈ inQ' ↔ q ∈ outQ) := fun q => by
    obtain ⟨l, hl, -⟩ := hval q
    obtain ⟨e1, e2⟩ := a4 q l hl
    obtain ⟨e3, e4⟩ := b4 q _ (flip_timeline (f := adjD adj) (T := T) hl)
    rw [hword q l hl] at e3 e4
    rw [e1, e2, e3, e4]
    exact ⟨flipWord_last _, flipWord_head _⟩
  have nd : ∀ {l : List Int}, l.Pairwise (· < ·) → l.Nodup := fun h => h.imp fun h => ne_of_lt h
  have uniq : ∀ {l l' : List Int}, l.Pairwise (· < ·) → l'.Pairwise (· < ·) → (∀ q, q ∈ l ↔ q ∈ l') → l = l' :=
    fun {l l'} h h' hm => ((List.perm_ext_iff_of_nodup (nd h) (nd h')).2 hm).eq_of_pairwise
      (fun a b _ _ h1 h2 => by omega) h h'
  obtain rfl : outQ' = inQ := uniq b2 a3 fun q => (hmem q).1
  obtain rfl : inQ' = outQ := uniq b3 a2 fun q => (hmem q).2
  refine ⟨c', tn, tn', inQ', outQ', ?_, rfl, hk, b3, b2, at', bt', hpure, a1, b1, a4, b4, a5, b5, ?_⟩
  · unfold adjoint
    rw [hp]
    exact hloop
  -- the entries
  intro x y hx hy hxb hyb
  obtain ⟨v, rfl⟩ := exists_map (nd b2) hx
  obtain ⟨u, rfl⟩ := exists_map (nd b3) hy
  have hu : ∀ q ∈ inQ', u q < 2 := fun q hq => hyb _ (List.mem_map.2 ⟨q, hq, rfl⟩)
  have hv : ∀ q ∈ outQ', v q < 2 := fun q hq => hxb _ (List.mem_map.2 ⟨q, hq, rfl⟩)
  have hL := inOrder_perm c
  have hLs := inOrder_sorted c
  rw [a6 c.inOrder hL hLs u v hu hv]
  have hL' : (c.inOrder.reverse.map (flipEntry (adjD adj) T)).Perm c' := ((List.reverse_perm _).trans hL).map _
  have hLs' : (c.inOrder.reverse.map (flipEntry (adjD adj) T)).Pairwise fun p p' => p.2.time ≤ p'.2.time := by
    rw [List.pairwise_map, List.pairwise_reverse]
    refine hLs.imp fun {a b} hab => ?_
    show T - b.2.time ≤ T - a.2.time
    omega
  rw [b6 _ hL' hLs' v u hv hu]
  obtain ⟨hw, hword'⟩ := wired_of_valid hval hL hLs
  have hmi : ∀ q, q ∈ outQ' ↔ (wireWord I.shape q c.inOrder).head? = some .inp := fun q => by
    obtain ⟨l, hl, -⟩ := hval q
    rw [(a4 q l hl).2, hword' q l hl]
  have hmo : ∀ q, q ∈ inQ' ↔ (wireWord I.shape q c.inOrder).getLast? = some .out := fun q => by
    obtain ⟨l, hl, -⟩ := hval q
    rw [(a4 q l hl).1, hword' q l hl]
  obtain ⟨hfl, haf⟩ := flows_of_wired (sh := I.shape) (ten := ten) (l := c.inOrder) (Q := outQ') (nd b2)
    (fun p hp => hfit p (hL.mem_iff.1 hp)) hw.chain (fun q hq => (hmi q).2 hq) (fun q hq hm => by
      rw [(hmi q).1 hm] at hq; cases hq)
  rw [← star_star (evolve _ (basisState inQ' u) v), star_evolve]
  congr 1
  have hbs : (fun x => star (basisState (R := R) inQ' u x)) = basisState inQ' u := by
    funext x
    unfold basisState
    split <;> simp
  rw [hbs]
  refine evolve_transpose ?_ hfl (nd b3) (fun q => ?_) hu hv
  · rw [List.map_reverse, List.map_reverse, List.map_reverse, List.reverse_reverse, List.map_map, List.map_map,
      List.forall₂_map_left_iff, List.forall₂_map_right_iff, List.forall₂_same]
    intro p hp
    have hpc := hL.mem_iff.1 hp
    obtain ⟨s, h1, h2, h3, h4, h5, h6⟩ := hadj p hpc
    obtain ⟨hqn, -⟩ := hsh p hpc
    have hs1 : shapeD I.shape p.2.op = s := by simp [shapeD, h1]
    have hs2 : shapeD I.shape (adjD adj p.2.op) = flipShape s := by simp [shapeD, h3]
    refine ⟨?_, ?_, fun w x hw hx => ?_⟩
    · show inQubits (shapeD I.shape (adjD adj p.2.op)) p.2.qubits = outQubits (shapeD I.shape p.2.op) p.2.qubits
      rw [hs1, hs2, inQubits_flip hqn]
    · show outQubits (shapeD I.shape (adjD adj p.2.op)) p.2.qubits = inQubits (shapeD I.shape p.2.op) p.2.qubits
      rw [hs1, hs2, outQubits_flip hqn]
    · simp only [actOf, hs1] at hw hx ⊢
      show star (ten (adjD adj p.2.op) _) = _
      rw [h6 _ _ (List.length_map _) (List.length_map _), star_star]
      · intro b hb
        obtain ⟨q, hq, rfl⟩ := List.mem_map.1 hb
        exact hx q hq
      · intro b hb
        obtain ⟨q, hq, rfl⟩ := List.mem_map.1 hb
        exact hw q hq
  · rw [haf q, hmo]
    refine ⟨Or.inl, fun h => h.elim id fun h => ?_⟩
    have := (hmi q).1 h.2
    rw [h.1] at this
    cases this

/-- C38 for circuits: the adjoint of a pure circuit exists, is pure and has the inputs of the circuit as outputs and the
outputs as inputs; its tensor is the conjugate transpose of the tensor of the circuit.  The operations are assumed to
have this property. -/
theorem c38_circuit {I : OpsIface α τ} {val : τ → List Nat → R} {adj : α → Except Err α} {c : Circ α} (hn : c.keys.Nodup)
    (hp : c.isPure I = .ok true) (hc : ∀ p ∈ c, Convertible I val ten p.2) (ha : ∀ p ∈ c, Adjointable I val ten adj p.2)
    (hz : (c.filter fun p => p.2.qubits = []).Pairwise fun p p' => p.2.time ≠ p'.2.time) :
    ∃ (c' : Circ α) (tn tn' : TN τ) (outQ inQ : List Int), c.adjoint I adj = .ok c' ∧ c'.isPure I = .ok true ∧
      c.convertPure I = .ok tn ∧ c'.convertPure I = .ok tn' ∧
      (∀ q l, Timeline c q l → (q ∈ outQ ↔ (wireWord I.shape q l).getLast? = some .out) ∧
        (q ∈ inQ ↔ (wireWord I.shape q l).head? = some .inp)) ∧
      (∀ q l, Timeline c' q l → (q ∈ inQ ↔ (wireWord I.shape q l).getLast? = some .out) ∧
        (q ∈ outQ ↔ (wireWord I.shape q l).head? = some .inp)) ∧
      tn.shape? = some (List.replicate (outQ.length + inQ.length) (some 2)) ∧
      tn'.shape? = some (List.replicate (inQ.length + outQ.length) (some 2)) ∧
      ConjTransposed (tn'.value0 val) (tn.value0 val) inQ.length outQ.length := by
  obtain ⟨c', tn, tn', outQ, inQ, h1, -, -, -, -, -, -, h2⟩ := c38_core hn hp hc ha hz
  exact ⟨c', tn, tn', outQ, inQ, h1, h2⟩

/-! ### An example: a state, a complex gate, a controlled gate and a measurement -/

/-- Basis states and measurements, a gate, its adjoint and a controlled gate. -/
inductive AdjOp where
  | state (k : Fin 2) | meas (k : Fin 2) | gate | gateA | cnot
  deriving DecidableEq

/-- The entries of the gate. -/
def adjGate (o i : Nat) : GaussianInt := ⟨1 + 2 * o + i, o⟩

/-- Shapes, tensors and markers. -/
def adjOps : OpsIface AdjOp (TVal GaussianInt) where
  shape
    | .state _ => .ok [[.o]]
    | .meas _ => .ok [[.i]]
    | .gate | .gateA => .ok [[.i, .o]]
    | .cnot => .ok [[.c], [.i, .o]]
  pure _ := .ok true
  basis
    | .state k => some (true, k)
    | .meas k => some (false, k)
    | _ => none
  tensor
    | .gate => .ok (arrVal [2, 2] fun l => match l with | [o, i] => adjGate o i | _ => 0)
    | .gateA => .ok (arrVal [2, 2] fun l => match l with | [o, i] => star (adjGate i o) | _ => 0)
    | .cnot => .ok (arrVal [2, 2, 2, 2] fun l => match l with
      | [p, o, c, i] => if p = c ∧ (o + c + i) % 2 = 0 then 1 else 0
      | _ => 0)
    | _ => .error .value

/-- The matrix entries. -/
def adjTen : AdjOp → List Nat → GaussianInt
  | .state k, l => if l = [k.1] then 1 else 0
  | .meas k, l => if l = [k.1] then 1 else 0
  | .gate, [o, i] => adjGate o i
  | .gateA, [o, i] => star (adjGate i o)
  | .cnot, [p, o, c, i] => if p = c ∧ (o + c + i) % 2 = 0 then 1 else 0
  | _, _ => 0

/-- The adjoints of the operations. -/
def adjAdj : AdjOp → Except Err AdjOp
  | .state k => .ok (.meas k)
  | .meas k => .ok (.state k)
  | .gate => .ok .gateA
  | .gateA => .ok .gate
  | .cnot => .ok .cnot

/-- A state prepared on qubit 1, a gate on qubit 0, a controlled gate on both, a measurement of qubit 1. -/
def adjCirc : Circ AdjOp :=
  [(.str "m", ⟨.meas 1, 3, [1]⟩), (.str "s", ⟨.state 0, 0, [1]⟩), (.str "g", ⟨.gate, 1, [0]⟩), (.str "x", ⟨.cnot, 2, [0, 1]⟩)]

theorem adj_convertible (op : AdjOp) (t : Int) (qs : List Int) (hn : qs.Nodup) (hl : (shapeD adjOps.shape op).length = qs.length) :
    Convertible adjOps (TVal.val (R := GaussianInt)) adjTen ⟨op, t, qs⟩ := by
  have h1 : ∀ q : Int, outQubits [[.o]] [q] = [q] ∧ inQubits [[.o]] [q] = [] ∧ outQubits [[.i]] [q] = [] ∧
      inQubits [[.i]] [q] = [q] ∧ outQubits [[.i, .o]] [q] = [q] ∧ inQubits [[.i, .o]] [q] = [q] := fun q => by
    simp [outQubits, inQubits, portsAt, Letter.ports]
  cases op with
  | state k =>
    obtain ⟨q, rfl⟩ := List.length_eq_one_iff.1 hl.symm
    refine ⟨_, rfl, rfl, hn, k.2, by rw [(h1 q).1, (h1 q).2.1]; rfl, fun x _ => ?_⟩
    simp [adjTen]
  | meas k =>
    obtain ⟨q, rfl⟩ := List.length_eq_one_iff.1 hl.symm
    refine ⟨_, rfl, rfl, hn, k.2, by rw [(h1 q).2.2.1, (h1 q).2.2.2.1]; rfl, fun x _ => ?_⟩
    simp [adjTen]
  | gate =>
    obtain ⟨q, rfl⟩ := List.length_eq_one_iff.1 hl.symm
    refine ⟨_, rfl, rfl, hn, _, rfl, by rw [(h1 q).2.2.2.2.1, (h1 q).2.2.2.2.2]; rfl, funext fun l => ?_⟩
    unfold arrVal
    rw [TVal.val]
    rcases l with _ | ⟨a, _ | ⟨b, _ | ⟨c, l⟩⟩⟩ <;> rfl
  | gateA =>
    obtain ⟨q, rfl⟩ := List.length_eq_one_iff.1 hl.symm
    refine ⟨_, rfl, rfl, hn, _, rfl, by rw [(h1 q).2.2.2.2.1, (h1 q).2.2.2.2.2]; rfl, funext fun l => ?_⟩
    unfold arrVal
    rw [TVal.val]
    rcases l with _ | ⟨a, _ | ⟨b, _ | ⟨c, l⟩⟩⟩ <;> rfl
  | cnot =>
    obtain ⟨q, q', rfl⟩ := List.length_eq_two.1 hl.symm
    have hq : q ≠ q' := by simpa using hn
    have h2 : outQubits [[.c], [.i, .o]] [q, q'] = [q, q'] ∧ inQubits [[.c], [.i, .o]] [q, q'] = [q, q'] := by
      simp [outQubits, inQubits, portsAt, Letter.ports, hq, hq.symm]
    refine ⟨_, rfl, rfl, hn, _, rfl, by rw [h2.1, h2.2]; rfl, funext fun l => ?_⟩
    unfold arrVal
    rw [TVal.val]
    rcases l with _ | ⟨a, _ | ⟨b, _ | ⟨c, _ | ⟨d, _ | ⟨e, l⟩⟩⟩⟩⟩ <;> rfl

theorem adj_adjointable : ∀ p ∈ adjCirc, Adjointable adjOps (TVal.val (R := GaussianInt)) adjTen adjAdj p.2 := by
  intro p hp
  simp only [adjCirc, List.mem_cons, List.not_mem_nil, or_false] at hp
  rcases hp with rfl | rfl | rfl | rfl
  · refine ⟨_, _, rfl, rfl, rfl, rfl, fun t => adj_convertible _ _ _ (by decide) rfl, ?_⟩
    intro x y hx hy _ _
    obtain ⟨a, rfl⟩ := List.length_eq_one_iff.1 hx
    obtain rfl := List.length_eq_zero_iff.1 hy
    by_cases h : a = 1 <;> simp [adjTen, h]
  · refine ⟨_, _, rfl, rfl, rfl, rfl, fun t => adj_convertible _ _ _ (by decide) rfl, ?_⟩
    intro x y hx hy _ _
    obtain ⟨a, rfl⟩ := List.length_eq_one_iff.1 hy
    obtain rfl := List.length_eq_zero_iff.1 hx
    by_cases h : a = 0 <;> simp [adjTen, h]
  · refine ⟨_, _, rfl, rfl, rfl, rfl, fun t => adj_convertible _ _ _ (by decide) rfl, ?_⟩
    intro x y hx hy _ _
    obtain ⟨a, rfl⟩ := List.length_eq_one_iff.1 hx
    obtain ⟨b, rfl⟩ := List.length_eq_one_iff.1 hy
    rfl
  · refine ⟨_, _, rfl, rfl, rfl, rfl, fun t => adj_convertible _ _ _ (by decide) rfl, ?_⟩
    intro x y hx hy _ _
    obtain ⟨a, b, rfl⟩ := List.length_eq_two.1 hx
    obtain ⟨c, d, rfl⟩ := List.length_eq_two.1 hy
    have : (a = c ∧ (b + c + d) % 2 = 0) ↔ (c = a ∧ (d + a + b) % 2 = 0) := by omega
    show (if a = c ∧ (b + c + d) % 2 = 0 then (1 : GaussianInt) else 0) = star (if c = a ∧ (d + a + b) % 2 = 0 then 1 else 0)
    rw [if_congr this rfl rfl]
    split <;> simp

/-- The hypotheses of `c38_circuit` are met. -/
example : ∃ c', adjCirc.adjoint adjOps adjAdj = .ok c' ∧ c'.length = 4 := by
  obtain ⟨c', -, -, -, -, h, -⟩ := c38_circuit (c := adjCirc) (I := adjOps) (adj := adjAdj) (by decide) (by decide)
    (fun p hp => by
      simp only [adjCirc, List.mem_cons, List.not_mem_nil, or_false] at hp
      rcases hp with rfl | rfl | rfl | rfl <;> exact adj_convertible _ _ _ (by decide) rfl)
    adj_adjointable (by decide)
  refine ⟨c', h, ?_⟩
  have h2 : ∃ c'', adjCirc.adjoint adjOps adjAdj = .ok c'' ∧ c''.length = 4 := ⟨_, rfl, rfl⟩
  obtain ⟨c'', h2, h3⟩ := h2
  rw [h] at h2
  cases h2
  exact h3

/-- C38 fails without the hypothesis on operations without qubits: two scalars at the same time get the same name in
the adjoint circuit, so that one of them is lost.  `a` and `b` are the names given by the user. -/
theorem c38_scalars_violated : ∃ (I : OpsIface Nat (TVal Nat)) (c c' : Circ Nat),
    append I.shape [] 2 [] (some 0) (some (.str "a")) = .ok [(.str "a", ⟨2, 0, []⟩)] ∧
    append I.shape [(.str "a", ⟨2, 0, []⟩)] 3 [] (some 0) (some (.str "b")) = .ok c ∧ c.isPure I = .ok true ∧
    c.adjoint I .ok = .ok c' ∧ c.map (fun p => p.2.op) = [2, 3] ∧ c'.map (fun p => p.2.op) = [3] :=
  ⟨⟨fun _ => .ok [], fun _ => .ok true, fun _ => none, fun k => .ok (arrVal [] fun _ => k)⟩, _, _, rfl, rfl, rfl, rfl, rfl, rfl⟩

end Circ

end Verif
