import Verif.Model.Timeline
import Verif.Props.Idle
import Mathlib.Tactic.Linarith
import Mathlib.Tactic.Ring
import Mathlib.Tactic.IntervalCases
/-!
# C69: `add_idle_noise` fills the gaps between the operations
-/

namespace Verif

namespace Qec

variable {K : Type} [Field K] [LinearOrder K]

/-! ## Spec -/

/-- The gap between two consecutive operations on a wire: its length and its middle; none after a measurement, before a state, or if there is no time
in between. -/
def gap (e e' : Event K) : List (K × K) :=
  if e.meas = false ∧ e'.state = false ∧ e.time < e'.time then [(e'.time - e.time, (e.time + e'.time) / 2)] else []

/-- The gaps of a wire. -/
def gaps : List (Event K) → List (K × K)
  | e :: e' :: l => gap e e' ++ gaps (e' :: l)
  | _ => []

/-- The ends of the wire: `start` and `end` count as operations. -/
def endpoint : Option K → List (Event K)
  | none => []
  | some t => [{ time := t, qubits := [] }]

theorem gaps_snoc (e e' : Event K) : ∀ l : List (Event K), gaps (l ++ [e, e']) = gaps (l ++ [e]) ++ gap e e'
  | [] => by simp [gaps]
  | [x] => by simp [gaps]
  | x :: y :: l => by
    have := gaps_snoc e e' (y :: l)
    simp only [List.cons_append] at this ⊢
    rw [gaps, gaps, this, List.append_assoc]

theorem gaps_meas {e : Event K} (h : e.meas = true) (l : List (Event K)) : gaps (e :: l) = gaps l := by
  cases l with
  | nil => rfl
  | cons e' l => rw [gaps]; simp [gap, h]

/-! ## One wire -/

/-- The loop on one wire. -/
def wireRun (q : Int) : List (Event K) → Wire K → Except Err (List (IdleOp K) × Wire K)
  | [], w => .ok ([], w)
  | e :: l, w =>
    match wireStep e q w with
    | .error x => .error x
    | .ok (w', o) =>
      match wireRun q l w' with
      | .error x => .error x
      | .ok (out, w'') => .ok (o.toList ++ out, w'')

/-- `time_start[q]` is set only if `time_last_meas[q]` is. -/
def Wire.Inv (w : Wire K) : Prop := w.started.isSome → w.lastMeas.isSome

theorem idleBefore_ok {t : K} {e : Event K} {q : Int} {w : Wire K} (h : w.Inv) : ∃ o, idleBefore t e q w = .ok o := by
  unfold idleBefore
  split
  · exact ⟨_, rfl⟩
  · split
    · split
      · exact ⟨_, rfl⟩
      · rename_i hs
        split
        · rename_i hl
          have := h (by rw [hs]; rfl)
          rw [hl] at this
          cases this
        · exact ⟨_, rfl⟩
    · exact ⟨_, rfl⟩

theorem wireStep_ok {e : Event K} {q : Int} {w : Wire K} (h : w.Inv) : ∃ w' o, wireStep e q w = .ok (w', o) ∧ w'.Inv := by
  have h' : (if e.nd then { w with lastMeas := some e.time } else w).Inv := by
    split
    · intro _; rfl
    · exact h
  unfold wireStep
  generalize (if e.nd then { w with lastMeas := some e.time } else w) = w1 at *
  obtain ⟨o, ho⟩ := idleBefore_ok (t := e.time) (e := e) (q := q) h'
  simp only [ho]
  split
  · rename_i hl
    split
    · refine ⟨_, _, rfl, fun _ => ?_⟩
      simp only [Bool.and_eq_true] at hl
      exact hl.2
    · exact ⟨_, _, rfl, fun hh => by cases hh⟩
  · exact ⟨_, _, rfl, h'⟩

theorem idleLoop_ok : ∀ (l : List (Event K × Int)) {s : Int → Wire K}, (∀ q, (s q).Inv) → ∃ r, idleLoop l s = .ok r
  | [], s, _ => ⟨_, rfl⟩
  | (e, q) :: l, s, h => by
    obtain ⟨w, o, h1, h2⟩ := wireStep_ok (e := e) (q := q) (h q)
    obtain ⟨r, hr⟩ := idleLoop_ok l (s := Function.update s q w) fun p => by
      by_cases hp : p = q
      · subst hp; rw [Function.update_self]; exact h2
      · rw [Function.update_of_ne hp]; exact h p
    refine ⟨(o.toList ++ r.1, r.2), ?_⟩
    rw [idleLoop, h1]
    simp only [hr]

theorem idleBefore_qubit {t : K} {e : Event K} {q : Int} {w : Wire K} {o : Option (IdleOp K)} (h : idleBefore t e q w = .ok o) : ∀ i ∈ o.toList, i.qubit = q := by
  unfold idleBefore at h
  split at h
  · cases h; simp
  · split at h
    · split at h
      · cases h; simp
      · split at h
        · cases h
        · cases h; simp
    · cases h; simp

theorem wireStep_qubit {e : Event K} {q : Int} {w w' : Wire K} {o : Option (IdleOp K)} (h : wireStep e q w = .ok (w', o)) : ∀ i ∈ o.toList, i.qubit = q := by
  unfold wireStep at h
  generalize (if e.nd then { w with lastMeas := some e.time } else w) = w1 at *
  cases ho : idleBefore e.time e q w1 with
  | error x => simp [ho] at h
  | ok o' =>
    simp only [ho] at h
    have : o' = o := by
      split at h
      · split at h <;> (cases h; rfl)
      · cases h; rfl
    subst this
    exact idleBefore_qubit ho

/-- What happens on a wire depends only on the operations on it. -/
theorem idleLoop_wire (q : Int) : ∀ {l : List (Event K × Int)} {s s' : Int → Wire K} {out : List (IdleOp K)}, idleLoop l s = .ok (out, s') →
    wireRun q ((l.filter fun p => p.2 = q).map Prod.fst) (s q) = .ok (out.filter fun i => i.qubit = q, s' q)
  | [], s, s', out, h => by cases h; rfl
  | (e, p) :: l, s, s', out, h => by
    rw [idleLoop] at h
    cases h1 : wireStep e p (s p) with
    | error x => simp [h1] at h
    | ok r =>
      obtain ⟨w, o⟩ := r
      simp only [h1] at h
      cases h2 : idleLoop l (Function.update s p w) with
      | error x => simp [h2] at h
      | ok r =>
        obtain ⟨out', s''⟩ := r
        simp only [h2] at h
        cases h
        have ih := idleLoop_wire q h2
        have hq := wireStep_qubit h1
        by_cases hp : p = q
        · subst hp
          rw [Function.update_self] at ih
          have ho : o.toList.filter (fun i => decide (i.qubit = p)) = o.toList := List.filter_eq_self.2 fun i hi => by simp [hq i hi]
          simp only [List.filter_cons_of_pos, decide_true, List.map_cons, wireRun, h1, ih, List.filter_append, ho]
        · rw [Function.update_of_ne (Ne.symm hp)] at ih
          have ho : o.toList.filter (fun i => decide (i.qubit = q)) = [] := List.filter_eq_nil_iff.2 fun i hi => by simp [hq i hi, hp]
          rw [List.filter_cons_of_neg (by simpa using hp), ih, List.filter_append, ho, List.nil_append]

/-- The part of the wire step that the gaps speak about. -/
theorem wireStep_gap {e0 e : Event K} {q : Int} {w w' : Wire K} {o : Option (IdleOp K)} (hw : w.timing = if e0.meas then none else some e0.time)
    (h : wireStep e q w = .ok (w', o)) [IsStrictOrderedRing K] :
    (o.toList.map fun i => (i.dur, i.time)) = gap e0 e ∧ w'.timing = if e.meas then none else some e.time := by
  unfold wireStep at h
  have hw1 : (if e.nd then { w with lastMeas := some e.time } else w).timing = if e0.meas then none else some e0.time := by
    split <;> exact hw
  generalize (if e.nd then { w with lastMeas := some e.time } else w) = w1 at *
  cases ho : idleBefore e.time e q w1 with
  | error x => simp [ho] at h
  | ok o' =>
    simp only [ho] at h
    have h12 : o' = o ∧ w'.timing = if e.meas then none else some e.time := by
      split at h
      · split at h <;> (cases h; exact ⟨rfl, rfl⟩)
      · cases h; exact ⟨rfl, rfl⟩
    obtain ⟨rfl, h2⟩ := h12
    refine ⟨?_, h2⟩
    unfold idleBefore at ho
    rw [hw1] at ho
    unfold gap
    cases hm : e0.meas with
    | true => simp [hm] at ho; subst ho; simp
    | false =>
      simp only [hm, Bool.false_eq_true, if_false] at ho
      by_cases hc : e.state = false ∧ e0.time < e.time
      · rw [if_pos (by simp [hc.1, hc.2])] at ho
        rw [if_pos ⟨rfl, hc⟩]
        split at ho
        · cases ho; rfl
        · split at ho
          · cases ho
          · cases ho; rfl
      · rw [if_neg (by simpa [Bool.and_eq_true] using fun h1 h2 => hc ⟨h1, h2⟩)] at ho
        rw [if_neg fun h => hc h.2]
        cases ho; rfl

theorem wireRun_gaps [IsStrictOrderedRing K] {q : Int} : ∀ {l : List (Event K)} {e0 : Event K} {w w' : Wire K} {out : List (IdleOp K)},
    w.timing = (if e0.meas then none else some e0.time) → wireRun q l w = .ok (out, w') →
    (out.map fun i => (i.dur, i.time)) = gaps (e0 :: l) ∧
      w'.timing = if ((e0 :: l).getLast (by simp)).meas then none else some ((e0 :: l).getLast (by simp)).time
  | [], e0, w, w', out, hw, h => by cases h; exact ⟨rfl, hw⟩
  | e :: l, e0, w, w', out, hw, h => by
    rw [wireRun] at h
    cases h1 : wireStep e q w with
    | error x => simp [h1] at h
    | ok r =>
      obtain ⟨w1, o⟩ := r
      simp only [h1] at h
      cases h2 : wireRun q l w1 with
      | error x => simp [h2] at h
      | ok r =>
        obtain ⟨out', w2⟩ := r
        simp only [h2] at h
        cases h
        obtain ⟨g1, g2⟩ := wireStep_gap hw h1
        obtain ⟨i1, i2⟩ := wireRun_gaps g2 h2
        refine ⟨?_, ?_⟩
        · rw [List.map_append, g1, i1, gaps]
        · rw [List.getLast_cons_cons]; exact i2

/-! ## The theorems -/

/-- C69: `add_idle_noise` never raises. -/
theorem c69_ok (events : List (Event K)) (start stop : Option K) : ∃ out, addIdleNoise events start stop = .ok out := by
  obtain ⟨r, hr⟩ := idleLoop_ok (events.flatMap fun e => e.qubits.map fun q => (e, q)) (s := fun _ => { timing := start }) fun q h => by cases h
  refine ⟨r.1 ++ idleEnd stop ((events.flatMap fun e => e.qubits).dedup.insertionSort (· ≤ ·)) r.2, ?_⟩
  unfold addIdleNoise
  rw [hr]

omit [Field K] [LinearOrder K] in
theorem wire_events {events : List (Event K)} (hn : ∀ e ∈ events, e.qubits.Nodup) (q : Int) :
    (((events.flatMap fun e => e.qubits.map fun q => (e, q)).filter fun p => p.2 = q).map Prod.fst) = events.filter fun e => q ∈ e.qubits := by
  induction events with
  | nil => rfl
  | cons e events ih =>
    rw [List.flatMap_cons, List.filter_append, List.map_append, ih fun e he => hn e (List.mem_cons_of_mem _ he), List.filter_cons]
    have h := hn e List.mem_cons_self
    have : (((e.qubits.map fun q => (e, q)).filter fun p => decide (p.2 = q)).map Prod.fst) = if q ∈ e.qubits then [e] else [] := by
      rw [List.filter_map, List.map_map]
      have e1 : (fun p : Event K × Int => decide (p.2 = q)) ∘ (fun q => (e, q)) = fun p => decide (p = q) := rfl
      rw [e1]
      have e2 : e.qubits.filter (fun p => decide (p = q)) = if q ∈ e.qubits then [q] else [] := by
        have e3 : (fun p : Int => decide (p = q)) = fun p => p == q := rfl
        rw [e3, List.filter_beq]
        split
        · rename_i hq; rw [List.count_eq_one_of_mem h hq]; rfl
        · rename_i hq; rw [List.count_eq_zero.2 hq]; rfl
      rw [e2]
      split <;> rfl
    rw [this]
    split
    · rename_i hq; simp [hq]
    · rename_i hq; simp [hq]

theorem filterMap_single {α : Type} {l : List Int} (hl : l.Nodup) {q : Int} (hq : q ∈ l) (f : Int → Option α) (g : α → Int) (hg : ∀ p, ∀ a ∈ f p, g a = p) :
    (l.filterMap f).filter (fun a => decide (g a = q)) = (f q).toList := by
  induction l with
  | nil => simp at hq
  | cons p l ih =>
    obtain ⟨h1, h2⟩ := List.nodup_cons.1 hl
    have hnone : ∀ l : List Int, q ∉ l → (l.filterMap f).filter (fun a => decide (g a = q)) = [] := by
      intro l hl
      refine List.filter_eq_nil_iff.2 fun a ha => ?_
      obtain ⟨p, hp, hpa⟩ := List.mem_filterMap.1 ha
      rw [decide_eq_true_eq, hg p a hpa]
      rintro rfl
      exact hl hp
    rw [show p :: l = [p] ++ l from rfl, List.filterMap_append, List.filter_append]
    by_cases hpq : p = q
    · subst hpq
      rw [hnone l h1, List.append_nil]
      cases hf : f p with
      | none => simp [hf]
      | some a => simp [hf, hg p a hf]
    · rw [hnone [p] (by simpa using Ne.symm hpq), List.nil_append, ih h2 ((List.mem_cons.1 hq).resolve_left (Ne.symm hpq))]

/-- **C69**: on every wire the appended gates are the gaps between consecutive operations (with `start` and `end` as further operations): their
durations, their time steps, in order. -/
theorem c69_gaps [IsStrictOrderedRing K] {events : List (Event K)} (hn : ∀ e ∈ events, e.qubits.Nodup) {start stop : Option K} {out : List (IdleOp K)}
    (h : addIdleNoise events start stop = .ok out) {q : Int} (hq : ∃ e ∈ events, q ∈ e.qubits) :
    ((out.filter fun i => i.qubit = q).map fun i => (i.dur, i.time)) =
      gaps (endpoint start ++ (events.filter fun e => q ∈ e.qubits) ++ endpoint stop) := by
  unfold addIdleNoise at h
  cases h1 : idleLoop (events.flatMap fun e => e.qubits.map fun q => (e, q)) fun _ => { timing := start } with
  | error x => simp [h1] at h
  | ok r =>
    obtain ⟨out', s⟩ := r
    simp only [h1] at h
    cases h
    have hw := idleLoop_wire q h1
    rw [wire_events hn] at hw
    set W := events.filter fun e => q ∈ e.qubits with hW
    have hWne : W ≠ [] := by
      obtain ⟨e, he, hqe⟩ := hq
      exact List.ne_nil_of_mem (List.mem_filter.2 ⟨he, by simpa using hqe⟩)
    -- the first operation
    have key : ((out'.filter fun i => i.qubit = q).map fun i => (i.dur, i.time)) = gaps (endpoint start ++ W) ∧
        (s q).timing = if (W.getLast hWne).meas then none else some (W.getLast hWne).time := by
      cases start with
      | none =>
        obtain ⟨e, l, hl⟩ := List.exists_cons_of_ne_nil hWne
        obtain ⟨g1, g2⟩ := wireRun_gaps (e0 := { time := (0 : K), qubits := [], meas := true }) (w := { timing := none }) rfl hw
        refine ⟨by rw [g1, gaps_meas rfl]; rfl, ?_⟩
        rw [g2]
        simp only [hl, List.getLast_cons_cons]
      | some t =>
        obtain ⟨e, l, hl⟩ := List.exists_cons_of_ne_nil hWne
        obtain ⟨g1, g2⟩ := wireRun_gaps (e0 := { time := t, qubits := [] }) (w := { timing := some t }) rfl hw
        refine ⟨by rw [g1]; rfl, ?_⟩
        rw [g2]
        simp only [hl, List.getLast_cons_cons]
    obtain ⟨k1, k2⟩ := key
    rw [List.filter_append, List.map_append, k1]
    cases stop with
    | none => simp [idleEnd, endpoint]
    | some t =>
      have hq' : q ∈ (events.flatMap fun e => e.qubits).dedup.insertionSort (· ≤ ·) := by
        rw [List.mem_insertionSort, List.mem_dedup, List.mem_flatMap]
        exact hq
      have hnd : ((events.flatMap fun e => e.qubits).dedup.insertionSort (· ≤ ·)).Nodup :=
        (List.perm_insertionSort _ _).nodup_iff.2 (List.nodup_dedup _)
      unfold idleEnd
      rw [filterMap_single hnd hq' _ IdleOp.qubit (by
        intro p a ha
        split at ha
        · cases ha
        · split at ha
          · cases ha; rfl
          · cases ha)]
      have hsplit : endpoint start ++ W ++ endpoint (some t) = (endpoint start ++ W.dropLast) ++ [W.getLast hWne, { time := t, qubits := [] }] := by
        conv_lhs => rw [← List.dropLast_append_getLast hWne]
        simp [endpoint]
      rw [hsplit, gaps_snoc, List.append_assoc, List.dropLast_append_getLast hWne]
      congr 1
      rw [k2]
      unfold gap
      cases hm : (W.getLast hWne).meas with
      | true => simp
      | false =>
        simp only [Bool.false_eq_true, if_false, true_and]
        by_cases hlt : (W.getLast hWne).time < t
        · simp [hlt]
        · simp [hlt]

/-- C69: gates are appended only to wires that the circuit uses. -/
theorem c69_used {events : List (Event K)} {start stop : Option K} {out : List (IdleOp K)} (h : addIdleNoise events start stop = .ok out) :
    ∀ i ∈ out, ∃ e ∈ events, i.qubit ∈ e.qubits := by
  unfold addIdleNoise at h
  cases h1 : idleLoop (events.flatMap fun e => e.qubits.map fun q => (e, q)) fun _ => { timing := start } with
  | error x => simp [h1] at h
  | ok r =>
    obtain ⟨out', s⟩ := r
    simp only [h1] at h
    cases h
    intro i hi
    rcases List.mem_append.1 hi with hi | hi
    · by_contra hne
      have hw := idleLoop_wire i.qubit h1
      have hnil : (events.flatMap fun e => e.qubits.map fun q => (e, q)).filter (fun p => decide (p.2 = i.qubit)) = [] := by
        refine List.filter_eq_nil_iff.2 fun p hp => ?_
        obtain ⟨e, he, hpe⟩ := List.mem_flatMap.1 hp
        obtain ⟨q, hq, rfl⟩ := List.mem_map.1 hpe
        rw [decide_eq_true_eq]
        rintro rfl
        exact hne ⟨e, he, hq⟩
      rw [hnil] at hw
      have h0 : [] = out'.filter fun j => j.qubit = i.qubit := congrArg Prod.fst (Except.ok.inj hw)
      have : i ∈ out'.filter fun j => j.qubit = i.qubit := List.mem_filter.2 ⟨hi, by simp⟩
      rw [← h0] at this
      simp at this
    · unfold idleEnd at hi
      cases stop with
      | none => simp at hi
      | some t =>
        obtain ⟨q, hq, hqi⟩ := List.mem_filterMap.1 hi
        rw [List.mem_insertionSort, List.mem_dedup, List.mem_flatMap] at hq
        split at hqi
        · cases hqi
        · split at hqi
          · cases hqi; exact hq
          · cases hqi

variable [IsStrictOrderedRing K]

theorem gap_mid {e e' : Event K} {x : K × K} (h : x ∈ gap e e') : 0 < x.1 ∧ e.time < x.2 ∧ x.2 < e'.time := by
  unfold gap at h
  split at h
  · rename_i hc
    rw [List.mem_singleton] at h
    subst h
    refine ⟨by simpa using hc.2.2, ?_, ?_⟩
    · show e.time < (e.time + e'.time) / 2
      linarith [hc.2.2]
    · show (e.time + e'.time) / 2 < e'.time
      linarith [hc.2.2]
  · simp at h

theorem gaps_after : ∀ {l : List (Event K)} {e : Event K}, ((e :: l).Pairwise fun a b => a.time ≤ b.time) → ∀ x ∈ gaps (e :: l), e.time < x.2
  | [], e, _, x, hx => by simp [gaps] at hx
  | e' :: l, e, hp, x, hx => by
    rw [gaps, List.mem_append] at hx
    rcases hx with hx | hx
    · exact (gap_mid hx).2.1
    · exact lt_of_le_of_lt ((List.pairwise_cons.1 hp).1 e' List.mem_cons_self) (gaps_after (List.pairwise_cons.1 hp).2 x hx)

/-- **C69**: the gates take positive time, their time steps increase, and no operation of the wire is at one of them: so no gate of the circuit is
replaced and the wire is still used once per time step. -/
theorem c69_fresh : ∀ {l : List (Event K)}, (l.Pairwise fun a b => a.time ≤ b.time) →
    (∀ x ∈ gaps l, 0 < x.1 ∧ ∀ e ∈ l, e.time ≠ x.2) ∧ (gaps l).Pairwise fun x y => x.2 < y.2
  | [], _ => by simp [gaps]
  | [e], _ => by simp [gaps]
  | e :: e' :: l, hp => by
    obtain ⟨h1, h2⟩ := List.pairwise_cons.1 hp
    obtain ⟨i1, i2⟩ := c69_fresh h2
    rw [gaps]
    refine ⟨fun x hx => ?_, ?_⟩
    · rcases List.mem_append.1 hx with hx | hx
      · obtain ⟨g1, g2, g3⟩ := gap_mid hx
        refine ⟨g1, fun a ha => ?_⟩
        rcases List.mem_cons.1 ha with rfl | ha
        · exact ne_of_lt g2
        · rcases List.mem_cons.1 ha with rfl | ha'
          · exact ne_of_gt g3
          · exact ne_of_gt (lt_of_lt_of_le g3 ((List.pairwise_cons.1 h2).1 a ha'))
      · refine ⟨(i1 x hx).1, fun a ha => ?_⟩
        rcases List.mem_cons.1 ha with ha | ha
        · rw [ha]
          exact ne_of_lt (lt_of_le_of_lt (h1 e' List.mem_cons_self) (gaps_after h2 x hx))
        · exact (i1 x hx).2 a ha
    · refine List.pairwise_append.2 ⟨?_, i2, fun x hx y hy => lt_trans (gap_mid hx).2.2 (gaps_after h2 y hy)⟩
      unfold gap
      split <;> simp

omit [IsStrictOrderedRing K] in
/-- **C69**: from a preparation to the next measurement the durations add up to the time elapsed. -/
theorem c69_total : ∀ {l : List (Event K)} (e : Event K), ((e :: l).Pairwise fun a b => a.time ≤ b.time) → (∀ x ∈ (e :: l).dropLast, x.meas = false) →
    (∀ x ∈ l, x.state = false) → ((gaps (e :: l)).map Prod.fst).sum = ((e :: l).getLast (by simp)).time - e.time
  | [], e, _, _, _ => by simp [gaps]
  | e' :: l, e, hp, hm, hs => by
    obtain ⟨h1, h2⟩ := List.pairwise_cons.1 hp
    rw [gaps, List.map_append, List.sum_append, c69_total e' h2 (fun x hx => hm x (by rw [List.dropLast_cons_cons]; exact List.mem_cons_of_mem _ hx))
      fun x hx => hs x (List.mem_cons_of_mem _ hx), List.getLast_cons_cons]
    have hg : ((gap e e').map Prod.fst).sum = e'.time - e.time := by
      unfold gap
      by_cases hlt : e.time < e'.time
      · rw [if_pos ⟨hm e (by rw [List.dropLast_cons_cons]; exact List.mem_cons_self), hs e' List.mem_cons_self, hlt⟩]; simp
      · rw [if_neg fun h => hlt h.2.2]
        have := h1 e' List.mem_cons_self
        have : e.time = e'.time := le_antisymm this (not_lt.1 hlt)
        simp [this]
    rw [hg]
    ring

/-! ## Photons -/

/-- The window from `a` to `b`, as seen from the wire. -/
def Wire.window (w : Wire K) (a b : K) : Option (Window K) :=
  match w.started, w.lastMeas with
  | some ts, some lm => some ⟨a - ts, b - ts, ts - lm⟩
  | _, _ => none

/-- Neither a Hadamard gate with noise nor a preparation or measurement. -/
def Event.Quiet (e : Event K) : Prop := e.nd = false ∧ e.state = false ∧ e.meas = false ∧ e.noisyH = false

omit [IsStrictOrderedRing K] in
theorem idleBefore_eq {t t0 : K} {e : Event K} {q : Int} {w : Wire K} (h : w.Inv) (ht : w.timing = some t0) : idleBefore t e q w =
    .ok (if e.state = false ∧ t - t0 > 0 then some ⟨q, t - t0, (t0 + t) / 2, w.window t0 t⟩ else none) := by
  unfold idleBefore Wire.window
  rw [ht]
  simp only [Bool.and_eq_true, Bool.not_eq_true', decide_eq_true_eq]
  split
  · cases hs : w.started with
    | none => rfl
    | some ts =>
      cases hl : w.lastMeas with
      | none => have := h (by rw [hs]; rfl); rw [hl] at this; cases this
      | some lm => rfl
  · rfl

omit [IsStrictOrderedRing K] in
theorem wireStep_quiet {e : Event K} (he : e.Quiet) {t0 : K} {q : Int} {w : Wire K} (h : w.Inv) (ht : w.timing = some t0) :
    wireStep e q w = .ok ({ w with timing := some e.time }, if e.time - t0 > 0 then some ⟨q, e.time - t0, (t0 + e.time) / 2, w.window t0 e.time⟩ else none) := by
  obtain ⟨h1, h2, h3, h4⟩ := he
  unfold wireStep
  simp only [h1, h3, h4, Bool.false_eq_true, if_false, Bool.false_and, idleBefore_eq h ht, h2, true_and]

/-- The `ts` of an idle gate. -/
def Window.toTs (w : Window ℝ) : Ts := ⟨w.start, w.stop, w.Dt⟩

theorem idle_glue (p : Params) (w : Wire ℝ) (a b c : ℝ) : andThen (idle (b - a) p ((w.window a b).map Window.toTs)) (idle (c - b) p ((w.window b c).map Window.toTs)) =
    idle (c - a) p ((w.window a c).map Window.toTs) := by
  unfold Wire.window
  have e : c - a = (b - a) + (c - b) := by ring
  rw [e]
  split
  · exact c66_windows _ _ _ _ _ _ p
  · exact c66_semigroup _ _ p

theorem wireRun_stretch (p : Params) {q : Int} : ∀ {l : List (Event ℝ)} {a t0 : ℝ} {w w' : Wire ℝ} {out : List (IdleOp ℝ)}, w.Inv → w.timing = some t0 →
    (∀ e ∈ l, e.Quiet) → (l.Pairwise fun x y => x.time ≤ y.time) → (∀ e ∈ l, t0 ≤ e.time) → wireRun q l w = .ok (out, w') →
    ∃ T, w'.timing = some T ∧ (∀ e ∈ l.getLast?, T = e.time) ∧ (l = [] → T = t0) ∧
      out.foldl (fun D i => andThen D (idle i.dur p (i.ts.map Window.toTs))) (idle (t0 - a) p ((w.window a t0).map Window.toTs)) =
        idle (T - a) p ((w.window a T).map Window.toTs)
  | [], a, t0, w, w', out, _, ht, _, _, _, h => by
    cases h
    exact ⟨t0, ht, by simp, fun _ => rfl, rfl⟩
  | e :: l, a, t0, w, w', out, hi, ht, hq, hs, hb, h => by
    rw [wireRun, wireStep_quiet (hq e List.mem_cons_self) hi ht] at h
    simp only at h
    cases h2 : wireRun q l { w with timing := some e.time } with
    | error x => simp [h2] at h
    | ok r =>
      obtain ⟨out', w2⟩ := r
      simp only [h2] at h
      cases h
      obtain ⟨T, h3, h4, h5, h6⟩ := wireRun_stretch p (a := a) (t0 := e.time) (w := { w with timing := some e.time }) hi rfl
        (fun x hx => hq x (List.mem_cons_of_mem _ hx)) (List.pairwise_cons.1 hs).2 (List.pairwise_cons.1 hs).1 h2
      refine ⟨T, h3, ?_, by simp, ?_⟩
      · cases l with
        | nil => intro x hx; simp at hx; subst hx; exact h5 rfl
        | cons y l => rw [List.getLast?_cons_cons]; exact h4
      · have hw : ∀ x y, ({ w with timing := some e.time } : Wire ℝ).window x y = w.window x y := fun x y => rfl
        rw [hw, hw] at h6
        rw [← h6]
        by_cases hc : e.time - t0 > 0
        · rw [if_pos hc]
          simp only [Option.toList_some, List.cons_append, List.nil_append, List.foldl_cons]
          rw [idle_glue]
        · rw [if_neg hc]
          have : t0 = e.time := le_antisymm (hb e List.mem_cons_self) (by linarith)
          rw [this]
          rfl

theorem idle_none (p : Params) (w : Wire ℝ) (t : ℝ) : idle (t - t) p ((w.window t t).map Window.toTs) = idChan := by
  rw [sub_self, ← c66_zero p]
  unfold Wire.window
  split
  · have h : ∀ a dt : ℝ, coh 0 p (some ⟨a, a, dt⟩) = coh 0 p none := by
      intro a dt
      unfold coh lamda
      simp
    unfold idle
    rw [Option.map_some, Window.toTs, h]
  · rfl

/-- **C69**: on a stretch of a wire without Hadamard gates, preparations and measurements all the idle noise together is that of one idle gate over the
whole stretch, with the photon window from its begin to its end: the noise does not depend on the gates in between. -/
theorem c69_stretch (p : Params) {q : Int} {l : List (Event ℝ)} {t0 : ℝ} {w : Wire ℝ} (hi : w.Inv) (ht : w.timing = some t0) (hq : ∀ e ∈ l, e.Quiet)
    (hs : l.Pairwise fun x y => x.time ≤ y.time) (hb : ∀ e ∈ l, t0 ≤ e.time) {e : Event ℝ} (he : e ∈ l.getLast?) :
    ∃ out w', wireRun q l w = .ok (out, w') ∧ out.foldl (fun D i => andThen D (idle i.dur p (i.ts.map Window.toTs))) idChan =
      idle (e.time - t0) p ((w.window t0 e.time).map Window.toTs) := by
  have hex : ∀ (l : List (Event ℝ)) (w : Wire ℝ), w.Inv → ∃ r, wireRun q l w = .ok r := by
    intro l
    induction l with
    | nil => intro w _; exact ⟨_, rfl⟩
    | cons e l ih =>
      intro w hw
      obtain ⟨w1, o, h1, h2⟩ := wireStep_ok (e := e) (q := q) hw
      obtain ⟨r, hr⟩ := ih w1 h2
      refine ⟨(o.toList ++ r.1, r.2), ?_⟩
      rw [wireRun, h1]; simp only [hr]
  obtain ⟨⟨out, w'⟩, h⟩ := hex l w hi
  obtain ⟨T, -, h2, -, h4⟩ := wireRun_stretch p (a := t0) hi ht hq hs hb h
  refine ⟨out, w', h, ?_⟩
  rw [idle_none, h2 e he] at h4
  exact h4

/-- What holds on a wire if measurements come after an even number of Hadamard gates; `odd` is the parity of the Hadamard gates so far. -/
structure Paired (odd : Bool) (w : Wire K) (l : List (Event K)) : Prop where
  even : odd = false → w.started = none
  opened : ∀ ts, w.started = some ts → ∃ lm, w.lastMeas = some lm ∧ lm ≤ ts ∧ (∀ t0, w.timing = some t0 → ts ≤ t0) ∧ ∀ e ∈ l, ts ≤ e.time
  closed : odd = true → w.started = none → w.lastMeas = none
  past : ∀ lm, w.lastMeas = some lm → ∀ e ∈ l, lm ≤ e.time

omit [Field K] [IsStrictOrderedRing K] in
theorem Paired.inv {odd : Bool} {w : Wire K} {l : List (Event K)} (h : Paired odd w l) : w.Inv := by
  intro hs
  obtain ⟨ts, hts⟩ := Option.isSome_iff_exists.1 hs
  obtain ⟨lm, h1, -⟩ := h.opened ts hts
  rw [h1]; rfl

/-- The windows of idle gates. -/
def IdleOp.Fine (i : IdleOp K) : Prop := ∀ w ∈ i.ts, 0 ≤ w.start ∧ w.stop - w.start = i.dur ∧ 0 ≤ w.Dt

theorem Paired.step {odd : Bool} {w w' : Wire K} {e : Event K} {l : List (Event K)} {q : Int} {o : Option (IdleOp K)} (h : Paired odd w (e :: l))
    (hs : (e :: l).Pairwise fun x y => x.time ≤ y.time) (hn : e.nd = true → odd = false) (hstep : wireStep e q w = .ok (w', o)) :
    (∀ i ∈ o.toList, i.Fine) ∧ Paired (xor odd e.noisyH) w' l := by
  have hle := (List.pairwise_cons.1 hs).1
  have h1 : Paired odd (if e.nd then { w with lastMeas := some e.time } else w) (e :: l) := by
    by_cases hnd : e.nd = true
    · rw [if_pos hnd]
      have hst := h.even (hn hnd)
      refine ⟨fun _ => hst, fun ts hts => ?_, fun ho => ?_, fun lm hlm x hx => ?_⟩
      · simp only at hts; rw [hst] at hts; cases hts
      · rw [hn hnd] at ho; cases ho
      · cases hlm
        rcases List.mem_cons.1 hx with rfl | hx
        · exact le_rfl
        · exact hle x hx
    · rw [if_neg hnd]; exact h
  unfold wireStep at hstep
  generalize (if e.nd then { w with lastMeas := some e.time } else w) = w1 at *
  cases ho : idleBefore e.time e q w1 with
  | error x => simp [ho] at hstep
  | ok o' =>
    simp only [ho] at hstep
    have hfine : ∀ i ∈ o'.toList, i.Fine := by
      cases ht : w1.timing with
      | none =>
        unfold idleBefore at ho
        rw [ht] at ho
        cases ho; simp
      | some t0 =>
        rw [idleBefore_eq h1.inv ht] at ho
        cases ho
        intro i hi
        split at hi
        · simp only [Option.toList_some, List.mem_singleton] at hi
          subst hi
          intro v hv
          simp only [Wire.window] at hv
          split at hv
          · rename_i ts lm e1 e2
            cases hv
            obtain ⟨lm', g1, g2, g3, -⟩ := h1.opened ts e1
            rw [e2] at g1
            cases g1
            have := g3 t0 ht
            exact ⟨by simpa using this, by simp, by simpa using g2⟩
          · cases hv
        · simp at hi
    have htime : ∀ t0, (if e.meas then none else some e.time) = some t0 → t0 = e.time := by
      intro t0; split <;> simp +contextual [eq_comm]
    have hpast : ∀ lm, w1.lastMeas = some lm → ∀ x ∈ l, lm ≤ x.time := fun lm hlm x hx => h1.past lm hlm x (List.mem_cons_of_mem _ hx)
    by_cases hH : e.noisyH = true
    · cases hl : w1.lastMeas with
      | none =>
        have hst : w1.started = none := by
          cases hs1 : w1.started with
          | none => rfl
          | some ts => obtain ⟨lm, g, -⟩ := h1.opened ts hs1; rw [hl] at g; cases g
        simp only [hH, hl, Bool.true_and, Option.isSome_none, Bool.false_eq_true, if_false] at hstep
        cases hstep
        refine ⟨hfine, fun _ => hst, fun ts hts => ?_, fun _ _ => rfl, fun lm hlm => by cases hlm⟩
        simp only at hts; rw [hst] at hts; cases hts
      | some lm =>
        simp only [hH, hl, Bool.true_and, Option.isSome_some, if_true] at hstep
        cases hst : w1.started with
        | none =>
          simp only [hst] at hstep
          cases hstep
          have hodd : odd = false := by
            cases odd with
            | false => rfl
            | true => have := h1.closed rfl hst; rw [hl] at this; cases this
          subst hodd
          refine ⟨hfine, fun hx => by rw [hH] at hx; simp at hx, fun ts hts => ?_, fun _ hx => (by cases hx), fun lm' hlm => ?_⟩
          · cases hts
            exact ⟨lm, rfl, h1.past lm hl e List.mem_cons_self, fun t0 ht0 => (htime t0 ht0).ge, hle⟩
          · cases hlm; exact hpast lm hl
        | some ts =>
          simp only [hst] at hstep
          cases hstep
          refine ⟨hfine, fun _ => rfl, fun ts hts => (by cases hts), fun _ _ => rfl, fun lm hlm => by cases hlm⟩
    · rw [Bool.not_eq_true] at hH
      simp only [hH, Bool.false_and, Bool.false_eq_true, if_false] at hstep
      cases hstep
      rw [hH, Bool.xor_false]
      refine ⟨hfine, h1.even, fun ts hts => ?_, h1.closed, hpast⟩
      obtain ⟨lm, g1, g2, g3, g4⟩ := h1.opened ts hts
      refine ⟨lm, g1, g2, fun t0 ht0 => ?_, fun x hx => g4 x (List.mem_cons_of_mem _ hx)⟩
      rw [htime t0 ht0]
      exact g4 e List.mem_cons_self

theorem wireRun_fine {q : Int} : ∀ {l : List (Event K)} {odd : Bool} {w w' : Wire K} {out : List (IdleOp K)}, Paired odd w l → (l.Pairwise fun x y => x.time ≤ y.time) →
    (∀ a e b, l = a ++ e :: b → e.nd = true → (a.countP Event.noisyH + odd.toNat) % 2 = 0) → wireRun q l w = .ok (out, w') → ∀ i ∈ out, i.Fine
  | [], odd, w, w', out, _, _, _, h => by cases h; simp
  | e :: l, odd, w, w', out, hp, hs, hn, h => by
    rw [wireRun] at h
    cases h1 : wireStep e q w with
    | error x => simp [h1] at h
    | ok r =>
      obtain ⟨w1, o⟩ := r
      simp only [h1] at h
      cases h2 : wireRun q l w1 with
      | error x => simp [h2] at h
      | ok r =>
        obtain ⟨out', w2⟩ := r
        simp only [h2] at h
        cases h
        obtain ⟨g1, g2⟩ := hp.step hs (fun hnd => by have := hn [] e l rfl hnd; cases odd <;> simp at this ⊢) h1
        have := wireRun_fine g2 (List.pairwise_cons.1 hs).2 (fun a x b hl hx => by
          have := hn (e :: a) x b (by rw [hl]; rfl) hx
          rw [List.countP_cons] at this
          cases odd <;> cases hH : e.noisyH <;> simp [hH] at this ⊢ <;> omega) h2
        intro i hi
        rcases List.mem_append.1 hi with hi | hi
        · exact g1 i hi
        · exact this i hi

/-- **C69**: if on a wire every measurement `ND` comes after an even number of noisy Hadamard gates (as in the rounds of the demo), all windows have
the length of the idle gate, begin at a nonnegative time, and the time `Dt` from the measurement to the first Hadamard gate is not negative. -/
theorem c69_windows_partial {events : List (Event K)} (hs : events.Pairwise fun x y => x.time ≤ y.time) (hnd : ∀ e ∈ events, e.qubits.Nodup) {start stop : Option K}
    {out : List (IdleOp K)} (h : addIdleNoise events start stop = .ok out) {q : Int}
    (hn : ∀ a e b, (events.filter fun e => q ∈ e.qubits) = a ++ e :: b → e.nd = true → a.countP Event.noisyH % 2 = 0) :
    ∀ i ∈ out, i.qubit = q → ∀ w ∈ i.ts, 0 ≤ w.start ∧ w.stop - w.start = i.dur ∧ 0 ≤ w.Dt := by
  unfold addIdleNoise at h
  cases h1 : idleLoop (events.flatMap fun e => e.qubits.map fun q => (e, q)) fun _ => { timing := start } with
  | error x => simp [h1] at h
  | ok r =>
    obtain ⟨out', s⟩ := r
    simp only [h1] at h
    cases h
    intro i hi hiq
    rcases List.mem_append.1 hi with hi | hi
    · have hw := idleLoop_wire q h1
      rw [wire_events hnd] at hw
      have := wireRun_fine (odd := false) (w := { timing := start }) ⟨fun _ => rfl, fun ts h => (by cases h), fun h => (by cases h), fun lm h => (by cases h)⟩
        (hs.sublist List.filter_sublist) (fun a e b hl he => by simpa using hn a e b hl he) hw
      exact this i (List.mem_filter.2 ⟨hi, by simpa using hiq⟩)
    · unfold idleEnd at hi
      cases stop with
      | none => simp at hi
      | some t =>
        obtain ⟨p, -, hp⟩ := List.mem_filterMap.1 hi
        split at hp
        · cases hp
        · split at hp
          · cases hp; intro w hw; cases hw
          · cases hp

/-- C69 in full is false: with one Hadamard gate between two measurements `ND` the window gets a negative `Dt`, because :72 has already replaced the time of
the first measurement. -/
theorem c69_windows_violated : ∃ (events : List (Event ℚ)) (i : IdleOp ℚ) (w : Window ℚ), (events.Pairwise fun x y => x.time ≤ y.time) ∧
    addIdleNoise events none none = .ok [⟨0, 1, 1 / 2, none⟩, i] ∧ i.ts = some w ∧ w.Dt < 0 := by
  refine ⟨[{ time := 0, qubits := [0], nd := true }, { time := 1, qubits := [0], noisyH := true }, { time := 3, qubits := [0], nd := true }],
    ⟨0, 2, 2, some ⟨0, 2, -2⟩⟩, ⟨0, 2, -2⟩, by simp, ?_, rfl, by norm_num⟩
  decide +kernel

/-- C69: the gates up to `end` get no photon window: with an operation at time 4 the last gate has one, with `end=4` it has none. -/
theorem c69_end_violated : ∃ (events : List (Event ℚ)) (e : Event ℚ) (w : Window ℚ), e.time = 4 ∧
    addIdleNoise (events ++ [e]) none none = .ok [⟨0, 1, 1 / 2, none⟩, ⟨0, 3, 5 / 2, some w⟩] ∧
    addIdleNoise events none (some 4) = .ok [⟨0, 1, 1 / 2, none⟩, ⟨0, 3, 5 / 2, none⟩] := by
  refine ⟨[{ time := 0, qubits := [0], nd := true }, { time := 1, qubits := [0], noisyH := true }], { time := 4, qubits := [0] }, ⟨0, 3, 1⟩, rfl, ?_, ?_⟩ <;>
    decide +kernel

/-- The hypotheses on a wire of an ancilla over two rounds: Hadamard, CZ, Hadamard, `ND` twice. The idle gates of the second round have windows. -/
def roundEvents : List (Event ℚ) :=
  [{ time := 10, qubits := [0], noisyH := true }, { time := 40, qubits := [0, 1] }, { time := 70, qubits := [0], noisyH := true }, { time := 230, qubits := [0], nd := true },
    { time := 710, qubits := [0], noisyH := true }, { time := 740, qubits := [0, 1] }, { time := 770, qubits := [0], noisyH := true }, { time := 930, qubits := [0], nd := true }]

example : (roundEvents.Pairwise fun x y => x.time ≤ y.time) ∧ (∀ e ∈ roundEvents, e.qubits.Nodup) ∧ (∃ e ∈ roundEvents, 0 ∈ e.qubits) ∧
    addIdleNoise roundEvents (some 0) none = .ok [⟨0, 10, 5, none⟩, ⟨0, 30, 25, none⟩, ⟨1, 40, 20, none⟩, ⟨0, 30, 55, none⟩, ⟨0, 160, 150, none⟩, ⟨0, 480, 470, none⟩,
      ⟨0, 30, 725, some ⟨0, 30, 480⟩⟩, ⟨1, 700, 390, none⟩, ⟨0, 30, 755, some ⟨30, 60, 480⟩⟩, ⟨0, 160, 850, none⟩] := by
  refine ⟨by decide +kernel, by decide, by decide, by decide +kernel⟩

example : ∀ a e b, (roundEvents.filter fun e => (0 : Int) ∈ e.qubits) = a ++ e :: b → e.nd = true → a.countP Event.noisyH % 2 = 0 := by
  intro a e b h hnd
  have hl : a.length < 8 := by have := congrArg List.length h; simp [roundEvents] at this; omega
  have ha : a = (roundEvents.filter fun e => (0 : Int) ∈ e.qubits).take a.length := by rw [h]; simp
  have he : (roundEvents.filter fun e => (0 : Int) ∈ e.qubits)[a.length]? = some e := by rw [h]; simp
  generalize a.length = n at *
  subst ha
  interval_cases n <;> simp [roundEvents] at he ⊢ <;> (subst he; simp at hnd)

/-- A wire in the middle of the photon decay, with two CZ gates to come: the hypotheses of `c69_stretch`. -/
example (p : Params) : ∃ out w', wireRun 0 ([{ time := 2, qubits := [0, 1] }, { time := 5, qubits := [0, 2] }] : List (Event ℝ)) (⟨some 1, some 0, some 1⟩ : Wire ℝ) = .ok (out, w') ∧
    out.foldl (fun D i => andThen D (idle i.dur p (i.ts.map Window.toTs))) idChan = idle (5 - 1) p (some ⟨1 - 1, 5 - 1, 1 - 0⟩) :=
  c69_stretch p (e := { time := 5, qubits := [0, 2] }) (fun _ => rfl) rfl (by simp [Event.Quiet]) (by simp; norm_num) (by simp) (by simp)

end Qec

end Verif
