import Verif.Spec.Wires
/-!
# C35: the shape of a circuit; C39, C40: composing and appending
-/

namespace Verif

namespace Circ

variable {α : Type} {sh : ShapeFn α}

/-- The ends as letters. -/
def portLetter : Port → Letter
  | .inp => .i
  | .out => .o

theorem portLetter_inj {p p' : Port} : portLetter p = portLetter p' ↔ p = p' := by
  cases p <;> cases p' <;> decide

theorem trans_eq (l : Letter) : trans l = l.ports.map portLetter := by cases l <;> rfl

theorem flatMap_trans (l : List Letter) : l.flatMap trans = (l.flatMap Letter.ports).map portLetter := by
  induction l with
  | nil => rfl
  | cons x l ih => simp [trans_eq, ih]

/-! ### The order of the operations -/

theorem times_pairwise (c : Circ α) : c.times.Pairwise (· < ·) := by
  have h1 := List.pairwise_insertionSort (· ≤ · : Int → Int → Prop) (c.map fun p => p.2.time).dedup
  have h2 : c.times.Nodup := (List.perm_insertionSort _ _).nodup_iff.2 (List.nodup_dedup _)
  exact (h1.and h2).imp fun h => lt_of_le_of_ne h.1 h.2

theorem mem_times {c : Circ α} {t : Int} : t ∈ c.times ↔ ∃ p ∈ c, p.2.time = t := by
  unfold times
  rw [List.mem_insertionSort, List.mem_dedup, List.mem_map]

theorem inOrder_eq (c : Circ α) : c.inOrder = c.times.flatMap fun t => c.filter fun p => p.2.time = t := by
  unfold inOrder byTime
  rw [List.flatMap_map]

theorem flatMap_filter_perm {β : Type} (l : List β) (f : β → Int) (ts : List Int) (hn : ts.Nodup) :
    (ts.flatMap fun t => l.filter fun x => f x = t).Perm (l.filter fun x => f x ∈ ts) := by
  induction ts with
  | nil => simp
  | cons t ts ih =>
    rw [List.flatMap_cons]
    have h1 := (ih (List.nodup_cons.1 hn).2).append_left (l.filter fun x => f x = t)
    refine h1.trans ?_
    have h2 : (l.filter fun x => f x = t) = (l.filter fun x => f x ∈ t :: ts).filter fun x => f x = t := by
      rw [List.filter_filter]
      refine List.filter_congr fun x _ => ?_
      by_cases h : f x = t <;> simp [h]
    have h3 : (l.filter fun x => f x ∈ ts) = (l.filter fun x => f x ∈ t :: ts).filter fun x => ! decide (f x = t) := by
      rw [List.filter_filter]
      refine List.filter_congr fun x _ => ?_
      by_cases h : f x = t
      · have : t ∉ ts := (List.nodup_cons.1 hn).1
        simp [h, this]
      · simp [h]
    rw [h2, h3]
    exact List.filter_append_perm _ _

theorem inOrder_perm (c : Circ α) : c.inOrder.Perm c := by
  rw [inOrder_eq]
  refine (flatMap_filter_perm c (fun p => p.2.time) c.times ((times_pairwise c).imp fun h => ne_of_lt h)).trans ?_
  rw [List.filter_eq_self.2]
  intro p hp
  simpa using mem_times.2 ⟨p, hp, rfl⟩

theorem inOrder_sorted (c : Circ α) : c.inOrder.Pairwise fun p p' => p.2.time ≤ p'.2.time := by
  rw [inOrder_eq, List.pairwise_flatMap]
  refine ⟨fun t _ => List.pairwise_of_forall_mem_list fun p hp p' hp' => ?_, (times_pairwise c).imp fun {t t'} ht p hp p' hp' => ?_⟩
  · have h1 : p.2.time = t := by simpa using (List.mem_filter.1 hp).2
    have h2 : p'.2.time = t := by simpa using (List.mem_filter.1 hp').2
    omega
  · have h1 : p.2.time = t := by simpa using (List.mem_filter.1 hp).2
    have h2 : p'.2.time = t' := by simpa using (List.mem_filter.1 hp').2
    omega

/-! ### The loop over the wires -/

/-- `last_time_used[q] < t`. -/
def Free (w : Wires) (t q : Int) : Prop := ∀ t', w.last q = some t' → t' < t

theorem useQubits_ok : ∀ (t : Int) (qs : List Int) (s : List (List Letter)) (w w' : Wires), qs.length = s.length →
    qs.Nodup → useQubits t qs s w = .ok w' →
    (∀ q ∈ qs, Free w t q) ∧ (∀ q, w'.last q = if q ∈ qs then some t else w.last q) ∧
      ∀ q, w'.str q = w.str q ++ (portsAt s qs q).map portLetter
  | t, [], s, w, w', _, _, h => by
    simp only [useQubits, Except.ok.injEq] at h
    subst h
    exact ⟨by simp, by simp, by simp [portsAt]⟩
  | t, q :: qs, [], w, w', hl, _, h => by simp at hl
  | t, q :: qs, l :: s, w, w', hl, hn, h => by
    rw [useQubits] at h
    split at h
    · cases h
    · rename_i hc
      obtain ⟨hq, hn'⟩ := List.nodup_cons.1 hn
      obtain ⟨h1, h2, h3⟩ := useQubits_ok t qs s _ w' (by simpa using hl) hn' h
      refine ⟨fun x hx => ?_, fun x => ?_, fun x => ?_⟩
      · rcases List.mem_cons.1 hx with rfl | hx
        · intro t' ht'
          simpa [busy, ht'] using hc
        · intro t' ht'
          exact h1 x hx t' (by dsimp only; rw [Function.update_of_ne (fun e : x = q => hq (e ▸ hx))]; exact ht')
      · rw [h2 x]
        by_cases hx : x ∈ qs
        · simp [hx]
        · by_cases hxq : x = q
          · subst hxq; simp [hx]
          · simp [hx, hxq]
      · rw [h3 x]
        by_cases hxq : x = q
        · subst hxq
          have : portsAt s qs x = [] := by
            unfold portsAt
            rw [List.filter_eq_nil_iff.2, List.flatMap_nil]
            intro p hp
            have := List.of_mem_zip hp
            simp only [decide_eq_true_eq]
            rintro rfl
            exact hq this.1
          have h4 : portsAt (l :: s) (x :: qs) x = l.flatMap Letter.ports ++ portsAt s qs x := by
            simp [portsAt]
          rw [h4, this, List.append_nil, List.map_nil, List.append_nil]
          dsimp only
          rw [Function.update_self, flatMap_trans]
        · dsimp only
          rw [Function.update_of_ne hxq]
          have h4 : portsAt (l :: s) (q :: qs) x = portsAt s qs x := by
            simp [portsAt, Ne.symm hxq]
          rw [h4]

theorem useQubits_total : ∀ (t : Int) (qs : List Int) (s : List (List Letter)) (w : Wires), qs.length = s.length →
    qs.Nodup → (∀ q ∈ qs, Free w t q) → ∃ w', useQubits t qs s w = .ok w'
  | t, [], s, w, _, _, _ => ⟨w, by simp [useQubits]⟩
  | t, q :: qs, [], w, hl, _, _ => by simp at hl
  | t, q :: qs, l :: s, w, hl, hn, hf => by
    obtain ⟨hq, hn'⟩ := List.nodup_cons.1 hn
    have hc : ¬ busy w t q = true := by
      unfold busy
      cases hw : w.last q with
      | none => simp
      | some t' =>
        have := hf q (by simp) t' hw
        simpa using this
    rw [useQubits, if_neg hc]
    refine useQubits_total t qs s _ (by simpa using hl) hn' fun x hx t' ht' => ?_
    simp only at ht'
    rw [Function.update_of_ne (by rintro rfl; exact hq hx)] at ht'
    exact hf x (by simp [hx]) t' ht'

/-- The operations on a qubit. -/
def touch (q : Int) (c : Circ α) : Circ α := c.filter fun p => q ∈ p.2.qubits

theorem touch_cons (q : Int) (p : Nm × OpRec α) (c : Circ α) :
    touch q (p :: c) = if q ∈ p.2.qubits then p :: touch q c else touch q c := by
  simp [touch, List.filter_cons]

/-- The times at which a qubit is used, after the given last time. -/
def timeChain (last : Option Int) (l : Circ α) : Prop :=
  (last.toList ++ l.map fun p => p.2.time).IsChain (· < ·)

theorem useAll_spec : ∀ (l : Circ α) (w : Wires), Fitting sh l →
    ((∃ w', useAll sh l w = .ok w') ↔ ∀ q, timeChain (w.last q) (touch q l)) ∧
    ∀ w', useAll sh l w = .ok w' → ∀ q, w'.str q = w.str q ++ (wireWord sh q (touch q l)).map portLetter
  | [], w, _ => by
    refine ⟨⟨fun _ q => ?_, fun _ => ⟨w, rfl⟩⟩, fun w' h q => ?_⟩
    · unfold timeChain touch
      cases w.last q <;> simp
    · simp only [useAll, Except.ok.injEq] at h
      subst h; simp [touch, wireWord]
  | (n, r) :: l, w, hf => by
    obtain ⟨s, hs, hl, hn⟩ := hf (n, r) (by simp)
    dsimp only at hs hl hn
    have ih := fun w => useAll_spec l w fun p hp => hf p (by simp [hp])
    have key : ∀ w1, useQubits r.time r.qubits s w = .ok w1 →
        ((∀ q, timeChain (w1.last q) (touch q l)) ↔ ∀ q, timeChain (w.last q) (touch q ((n, r) :: l))) ∧
        ∀ q, w1.str q ++ (wireWord sh q (touch q l)).map portLetter =
          w.str q ++ (wireWord sh q (touch q ((n, r) :: l))).map portLetter := by
      intro w1 hw
      obtain ⟨h1, h2, h3⟩ := useQubits_ok _ _ _ _ _ hl.symm hn hw
      refine ⟨forall_congr' fun q => ?_, fun q => ?_⟩
      · rw [touch_cons, h2 q]
        by_cases hq : q ∈ r.qubits
        · rw [if_pos hq, if_pos hq]
          unfold timeChain
          simp only [Option.toList_some, List.singleton_append, List.map_cons]
          cases hw : w.last q with
          | none => simp
          | some t' =>
            simp only [Option.toList_some, List.singleton_append, List.isChain_cons_cons]
            exact ⟨fun h => ⟨h1 q hq t' hw, h⟩, fun h => h.2⟩
        · rw [if_neg hq, if_neg hq]
      · rw [h3 q, touch_cons]
        have hsd : shapeD sh r.op = s := by simp [shapeD, hs]
        by_cases hq : q ∈ r.qubits
        · rw [if_pos hq]
          simp [wireWord, hsd]
        · rw [if_neg hq]
          have : portsAt s r.qubits q = [] := by
            unfold portsAt
            rw [List.filter_eq_nil_iff.2, List.flatMap_nil]
            intro p hp
            have := List.of_mem_zip hp
            simp only [decide_eq_true_eq]
            rintro rfl
            exact hq this.1
          rw [this]; simp
    refine ⟨⟨?_, fun h => ?_⟩, ?_⟩
    · rintro ⟨w', hw'⟩
      rw [useAll, hs] at hw'
      dsimp only at hw'
      cases hw : useQubits r.time r.qubits s w with
      | error e => rw [hw] at hw'; cases hw'
      | ok w1 =>
        rw [hw] at hw'
        exact (key w1 hw).1.1 ((ih w1).1.1 ⟨w', hw'⟩)
    · obtain ⟨w1, hw⟩ := useQubits_total r.time r.qubits s w hl.symm hn (by
        intro q hq t' ht'
        have := h q
        rw [touch_cons, if_pos hq, ht'] at this
        unfold timeChain at this
        simp only [Option.toList_some, List.singleton_append, List.map_cons, List.isChain_cons_cons] at this
        exact this.1)
      obtain ⟨w', hw'⟩ := (ih w1).1.2 ((key w1 hw).1.2 h)
      exact ⟨w', by rw [useAll, hs]; dsimp only; rw [hw]; exact hw'⟩
    · intro w' hw' q
      rw [useAll, hs] at hw'
      dsimp only at hw'
      cases hw : useQubits r.time r.qubits s w with
      | error e => rw [hw] at hw'; cases hw'
      | ok w1 =>
        rw [hw] at hw'
        rw [(ih w1).2 w' hw' q, (key w1 hw).2 q]

/-! ### The regular expression -/

theorem matchTail_iff : ∀ w : List Port, matchTail (w.map portLetter) = true ↔ w.IsChain (· ≠ ·) ∧ w.head? ≠ some .out
  | [] => by simp [matchTail]
  | [.inp] => by simp [matchTail, portLetter]
  | [.out] => by simp [matchTail, portLetter]
  | .inp :: .out :: w => by
    have := matchTail_iff w
    simp only [List.map_cons, portLetter, matchTail, this, List.isChain_cons_cons]
    cases w with
    | nil => simp
    | cons p w => cases p <;> simp [List.isChain_cons_cons]
  | .inp :: .inp :: w => by simp [matchTail, portLetter]
  | .out :: p :: w => by simp [matchTail, portLetter]

theorem matchWire_iff (w : List Port) : matchWire (w.map portLetter) = true ↔ Connectable w := by
  unfold Connectable
  cases w with
  | nil => simp [matchWire, matchTail]
  | cons p w =>
    cases p with
    | out =>
      have h := matchTail_iff w
      simp only [List.map_cons, portLetter, matchWire, h]
      cases w with
      | nil => simp
      | cons p w => cases p <;> simp [List.isChain_cons_cons]
    | inp =>
      have h := matchTail_iff (.inp :: w)
      simp only [List.map_cons, portLetter, matchWire] at h ⊢
      rw [h]; simp

theorem alternating_last : ∀ (w : List Port) (p : Port), (p :: w).IsChain (· ≠ ·) →
    ((p :: w).getLast? = some p ↔ w.length % 2 = 0)
  | [], p, _ => by simp
  | [p'], p, h => by
    simp only [List.isChain_cons_cons] at h
    simp [Ne.symm h.1]
  | p' :: p'' :: w, p, h => by
    simp only [List.isChain_cons_cons] at h
    have e : p'' = p := by
      have h1 := h.1; have h2 := h.2.1
      cases p <;> cases p' <;> cases p'' <;> simp_all
    subst e
    have := alternating_last w p'' h.2.2
    rw [List.getLast?_cons_cons, List.getLast?_cons_cons, this]
    simp only [List.length_cons]
    omega

/-- What is reported of a connectable word: its first and its last letter. -/
theorem report_ends {w : List Port} (hw : Connectable w) :
    ∃ l, report (w.map portLetter) = .ok l ∧ l.head? = (w.head?).map portLetter ∧ l.getLast? = (w.getLast?).map portLetter := by
  refine ⟨_, by rw [report, if_pos ((matchWire_iff w).2 hw)], ?_, ?_⟩
  · rw [List.length_map, List.head?_take, if_neg (by omega), List.head?_map]
  · rw [List.length_map]
    cases w with
    | nil => simp
    | cons p w =>
      have hl := alternating_last w p hw
      rcases Nat.mod_two_eq_zero_or_one w.length with h | h
      · have e : 2 - (p :: w).length % 2 = 1 := by simp only [List.length_cons]; omega
        rw [e, hl.2 h]; simp
      · have e : 2 - (p :: w).length % 2 = 2 := by simp only [List.length_cons]; omega
        rw [e]
        cases w with
        | nil => simp at h
        | cons p' w =>
          have h2 := alternating_last w p' (by unfold Connectable at hw; rw [List.isChain_cons_cons] at hw; exact hw.2)
          rw [List.getLast?_cons_cons, h2.2 (by simp only [List.length_cons] at h; omega)]
          simp

/-! ### C35 -/

theorem timeline_iff {c : Circ α} {q : Int} :
    (∃ l, Timeline c q l) ↔ timeChain none (touch q c.inOrder) := by
  have hp : (touch q c.inOrder).Perm (c.filter fun p => q ∈ p.2.qubits) := (inOrder_perm c).filter _
  constructor
  · rintro ⟨l, h1, h2⟩
    have h3 : (touch q c.inOrder).Pairwise fun p p' => p.2.time ≤ p'.2.time := (inOrder_sorted c).filter _
    have h4 : ((touch q c.inOrder).map fun p => p.2.time).Nodup := by
      refine ((hp.trans h1.symm).map _).nodup_iff.2 ?_
      rw [List.Nodup, List.pairwise_map]
      exact h2.imp fun h => ne_of_lt h
    unfold timeChain
    simp only [Option.toList_none, List.nil_append]
    rw [List.isChain_iff_pairwise]
    rw [List.Nodup, List.pairwise_map] at h4
    rw [List.pairwise_map]
    exact (h3.and h4).imp fun h => lt_of_le_of_ne h.1 h.2
  · intro h
    unfold timeChain at h
    simp only [Option.toList_none, List.nil_append] at h
    rw [List.isChain_iff_pairwise, List.pairwise_map] at h
    exact ⟨_, hp, h⟩

theorem timeline_unique {c : Circ α} {q : Int} {l l' : Circ α} (h : Timeline c q l) (h' : Timeline c q l') : l = l' := by
  refine (h.1.trans h'.1.symm).eq_of_pairwise ?_ h.2 h'.2
  intro a b _ _ h1 h2
  omega

theorem touch_timeline {c : Circ α} {q : Int} {l : Circ α} (h : Timeline c q l) : touch q c.inOrder = l := by
  have h1 := timeline_iff.1 ⟨l, h⟩
  unfold timeChain at h1
  simp only [Option.toList_none, List.nil_append] at h1
  rw [List.isChain_iff_pairwise, List.pairwise_map] at h1
  exact timeline_unique ⟨(inOrder_perm c).filter _, h1⟩ h

theorem mem_allQubits {c : Circ α} {q : Int} : q ∈ c.allQubits ↔ ∃ p ∈ c, q ∈ p.2.qubits := by
  unfold allQubits
  rw [List.mem_insertionSort, List.mem_dedup, List.mem_flatMap]

theorem mapM_except {β γ : Type} {f : β → Except Err γ} {l : List β} :
    (∃ r, l.mapM f = .ok r) ↔ ∀ x ∈ l, ∃ y, f x = .ok y := by
  induction l with
  | nil => simp [pure, Except.pure]
  | cons x l ih =>
    rw [List.mapM_cons]
    constructor
    · rintro ⟨r, hr⟩
      cases hx : f x with
      | error e => rw [hx] at hr; cases hr
      | ok y =>
        rw [hx] at hr
        cases hl : l.mapM f with
        | error e => rw [hl] at hr; cases hr
        | ok ys =>
          intro z hz
          rcases List.mem_cons.1 hz with rfl | hz
          · exact ⟨y, hx⟩
          · exact ih.1 ⟨ys, hl⟩ z hz
    · intro h
      obtain ⟨y, hy⟩ := h x (by simp)
      obtain ⟨ys, hys⟩ := ih.2 fun z hz => h z (by simp [hz])
      exact ⟨y :: ys, by rw [hy, hys]; rfl⟩

theorem mapM_except_get {β γ : Type} {f : β → Except Err γ} {l : List β} {r : List γ} (h : l.mapM f = .ok r) :
    List.Forall₂ (fun x y => f x = .ok y) l r := by
  induction l generalizing r with
  | nil => simp [pure, Except.pure] at h; subst h; exact List.Forall₂.nil
  | cons x l ih =>
    rw [List.mapM_cons] at h
    cases hx : f x with
    | error e => rw [hx] at h; cases h
    | ok y =>
      rw [hx] at h
      cases hl : l.mapM f with
      | error e => rw [hl] at h; cases h
      | ok ys =>
        rw [hl] at h
        cases h
        exact List.Forall₂.cons hx (ih hl)

/-- C35: `Circuit.shape` succeeds exactly if on every qubit the operations happen at different times and, in that
order, can be connected. -/
theorem c35_shape_iff {c : Circ α} (hf : Fitting sh c) :
    (∃ s, c.shape sh = .ok s) ↔ ∀ q, ∃ l, Timeline c q l ∧ Connectable (wireWord sh q l) := by
  have hfo : Fitting sh c.inOrder := fun p hp => hf p ((inOrder_perm c).mem_iff.1 hp)
  obtain ⟨h1, h2⟩ := useAll_spec c.inOrder {} hfo
  unfold shape
  constructor
  · rintro ⟨s, hs⟩ q
    cases hw : useAll sh c.inOrder {} with
    | error e => rw [hw] at hs; cases hs
    | ok w =>
      rw [hw] at hs
      dsimp only at hs
      have hch := h1.1 ⟨w, hw⟩ q
      obtain ⟨l, hl⟩ := timeline_iff.2 hch
      refine ⟨l, hl, ?_⟩
      by_cases hq : q ∈ c.allQubits
      · obtain ⟨y, hy⟩ := mapM_except.1 ⟨s, hs⟩ q hq
        rw [h2 w hw q, touch_timeline hl] at hy
        simp only [List.nil_append] at hy
        unfold report at hy
        split at hy
        · rename_i hm; exact (matchWire_iff _).1 hm
        · cases hy
      · have : l = [] := by
          refine List.eq_nil_iff_forall_not_mem.2 fun p hp => hq ?_
          have := List.mem_filter.1 (hl.1.mem_iff.1 hp)
          exact mem_allQubits.2 ⟨p, this.1, by simpa using this.2⟩
        subst this
        simp [wireWord, Connectable]
  · intro h
    obtain ⟨w, hw⟩ := h1.2 fun q => timeline_iff.1 ⟨_, (h q).choose_spec.1⟩
    rw [hw]
    dsimp only
    refine mapM_except.2 fun q _ => ?_
    obtain ⟨l, hl, hc⟩ := h q
    obtain ⟨y, hy, -⟩ := report_ends hc
    refine ⟨y, ?_⟩
    rw [h2 w hw q, touch_timeline hl]
    simpa using hy

/-- C35: what is reported: one string per qubit in use, the qubits in increasing order; its first letter is the first
end met on the wire, its last letter the last one. So the string starts with `i` exactly if the qubit has a free
input at the start, and ends with `o` exactly if it has a free output at the end. -/
theorem c35_shape_value {c : Circ α} (hf : Fitting sh c) {s : List (List Letter)} (hs : c.shape sh = .ok s) :
    ∃ qs : List Int, qs.Pairwise (· < ·) ∧ (∀ q, q ∈ qs ↔ ∃ p ∈ c, q ∈ p.2.qubits) ∧
      List.Forall₂ (fun q r => ∀ l, Timeline c q l →
        (r.head? = some .i ↔ (wireWord sh q l).head? = some .inp) ∧
        (r.getLast? = some .o ↔ (wireWord sh q l).getLast? = some .out)) qs s := by
  have hok := (c35_shape_iff hf).1 ⟨s, hs⟩
  have hfo : Fitting sh c.inOrder := fun p hp => hf p ((inOrder_perm c).mem_iff.1 hp)
  obtain ⟨h1, h2⟩ := useAll_spec c.inOrder {} hfo
  unfold shape at hs
  cases hw : useAll sh c.inOrder {} with
  | error e => rw [hw] at hs; cases hs
  | ok w =>
    rw [hw] at hs
    dsimp only at hs
    refine ⟨c.allQubits, ?_, fun q => mem_allQubits, (mapM_except_get hs).imp fun q r hr l hl => ?_⟩
    · have h1 := List.pairwise_insertionSort (· ≤ · : Int → Int → Prop) (c.flatMap fun p => p.2.qubits).dedup
      have h2 : c.allQubits.Nodup := (List.perm_insertionSort _ _).nodup_iff.2 (List.nodup_dedup _)
      exact (h1.and h2).imp fun h => lt_of_le_of_ne h.1 h.2
    · obtain ⟨l', hl', hc⟩ := hok q
      rw [timeline_unique hl' hl] at hc
      rw [h2 w hw q, touch_timeline hl] at hr
      simp only [List.nil_append] at hr
      obtain ⟨y, hy, he1, he2⟩ := report_ends hc
      rw [hy] at hr
      cases hr
      rw [he1, he2]
      constructor
      · cases (wireWord sh q l).head? with
        | none => simp
        | some p => cases p <;> simp [portLetter]
      · cases (wireWord sh q l).getLast? with
        | none => simp
        | some p => cases p <;> simp [portLetter]

/-- A toy type of operations: just the shape. -/
def idShape : ShapeFn (List (List Letter)) := fun s => .ok s

/-- State, gate with a control, measurement and a new state. -/
def wiresExample : Circ (List (List Letter)) :=
  [(.str "g", ⟨[[.c], [.i, .o]], 1, [3, 5]⟩), (.str "s", ⟨[[.o]], 0, [3]⟩), (.str "m", ⟨[[.i]], 4, [3]⟩), (.str "n", ⟨[[.o]], 6, [3]⟩)]

/-- `c35_shape_iff` and `c35_shape_value` on `wiresExample`, and a circuit that is rejected. -/
example : (∀ q, ∃ l, Timeline wiresExample q l ∧ Connectable (wireWord idShape q l)) ∧
    wiresExample.shape idShape = .ok [[.o], [.i, .o]] ∧
    ¬ ∀ q, ∃ l, Timeline (wiresExample ++ [(.str "x", ⟨[[.o]], 7, [3]⟩)]) q l ∧
      Connectable (wireWord idShape q l) := by
  have hf : ∀ c : Circ (List (List Letter)), (∀ p ∈ c, p.2.op.length = p.2.qubits.length ∧ p.2.qubits.Nodup) → Fitting idShape c :=
    fun c h p hp => ⟨_, rfl, h p hp⟩
  refine ⟨(c35_shape_iff (hf _ (by decide))).1 ⟨_, rfl⟩, rfl, fun h => ?_⟩
  obtain ⟨s, hs⟩ := (c35_shape_iff (hf _ (by decide))).2 h
  have : shape idShape (wiresExample ++ [(.str "x", ⟨[[.o]], 7, [3]⟩)]) = .error .value := rfl
  rw [this] at hs
  cases hs

/-! ### C40 appending -/

theorem le_foldl_max (l : Circ α) (m : Int) : m ≤ l.foldl (fun m p => max m p.2.time) m := by
  induction l generalizing m with
  | nil => exact le_refl _
  | cons p l ih => exact le_trans (le_max_left _ _) (ih _)

theorem time_le_foldl {l : Circ α} {m : Int} {p : Nm × OpRec α} (hp : p ∈ l) :
    p.2.time ≤ l.foldl (fun m p => max m p.2.time) m := by
  induction l generalizing m with
  | nil => simp at hp
  | cons x l ih =>
    rcases List.mem_cons.1 hp with rfl | hp
    · exact le_trans (le_max_right _ _) (le_foldl_max _ _)
    · exact ih hp

theorem time_le_max {c : Circ α} {p : Nm × OpRec α} (hp : p ∈ c) : p.2.time ≤ c.maxTime := by
  cases c with
  | nil => simp at hp
  | cons x c =>
    rcases List.mem_cons.1 hp with rfl | hp
    · exact le_foldl_max _ _
    · exact time_le_foldl hp

theorem autoName_time {t t' : Int} {qs qs' : List Int} (h : autoName t qs = autoName t' qs') : t = t' := by
  simp only [autoName, Nm.pair, Nm.cons.injEq, Nm.int.injEq] at h
  exact h.1

theorem autoName_inj {t t' : Int} {qs qs' : List Int} (h : autoName t qs = autoName t' qs') : t = t' ∧ qs = qs' := by
  refine ⟨autoName_time h, ?_⟩
  simp only [autoName, Nm.pair, Nm.cons.injEq] at h
  have h2 := h.2.1
  clear h
  induction qs generalizing qs' with
  | nil => cases qs' <;> simp_all
  | cons q qs ih =>
    cases qs' with
    | nil => simp at h2
    | cons q' qs' =>
      simp only [List.foldr_cons, Nm.cons.injEq, Nm.int.injEq] at h2
      rw [h2.1, ih h2.2]

/-- Every operation that has a name of the default form `(t, qubits)` happens at time `t`.  (True if all operations
were appended without names, or with names that are not such tuples.) -/
def Stamped (c : Circ α) : Prop := ∀ n r, (n, r) ∈ c → ∀ t qs, n = autoName t qs → t = r.time

/-- C40 for `append(op, qubits)`: the circuit is extended by exactly the new operation, at a time after all others;
nothing is lost. Partial: for an explicit time step see `c40_same_time_violated`. -/
theorem c40_append_partial {c c' : Circ α} {op : α} {qs : List Int} (hc : Stamped c)
    (h : c.append sh op qs = .ok c') :
    ∃ n t, c' = c ++ [(n, ⟨op, t, qs⟩)] ∧ n ∉ c.keys ∧ (∀ p ∈ c, p.2.time < t) ∧ Stamped c' := by
  unfold append at h
  simp only [Option.getD_none] at h
  split at h
  · cases h
  · split at h
    · cases h
    · split at h
      · cases h
      · cases h
        have hn : autoName (1 + c.maxTime) qs ∉ c.keys := by
          intro hm
          obtain ⟨⟨n, r⟩, hp, hpn⟩ := List.mem_map.1 hm
          have h1 := hc n r hp _ _ hpn
          have h2 := time_le_max hp
          dsimp only at h2
          omega
        refine ⟨_, _, Dict.set_eq_append hn _, hn, fun p hp => by have := time_le_max hp; omega, ?_⟩
        rw [Dict.set_eq_append hn]
        intro n r hm t qs' hnt
        rcases List.mem_append.1 hm with hm | hm
        · exact hc n r hm t qs' hnt
        · simp only [List.mem_singleton, Prod.mk.injEq] at hm
          obtain ⟨rfl, rfl⟩ := hm
          exact (autoName_time hnt).symm

/-- C40 with an explicit time step: nothing is lost if no operation carries the default name already. -/
theorem c40_append_time_partial {c c' : Circ α} {op : α} {qs : List Int} {t : Int}
    (hc : ∀ p ∈ c, p.1 ≠ autoName t qs) (h : c.append sh op qs (some t) = .ok c') :
    c' = c ++ [(autoName t qs, ⟨op, t, qs⟩)] := by
  unfold append at h
  simp only [Option.getD_none, Option.getD_some] at h
  split at h
  · cases h
  · split at h
    · cases h
    · split at h
      · cases h
      · cases h
        refine Dict.set_eq_append (fun hm => ?_) _
        obtain ⟨p, hp, hpn⟩ := List.mem_map.1 hm
        exact hc p hp hpn

/-- C40 when an append succeeds: exactly if the qubits are distinct and as many as the operation has. -/
theorem c40_append_ok {c : Circ α} {op : α} {qs : List Int} {t : Option Int} {n : Option Nm} {s : List (List Letter)}
    (hs : sh op = .ok s) : (∃ c', c.append sh op qs t n = .ok c') ↔ qs.Nodup ∧ qs.length = s.length := by
  unfold append
  simp only [hs]
  by_cases h1 : qs.Nodup <;> by_cases h2 : qs.length = s.length <;> simp [h1, h2]

/-- The hypotheses of C35 and C39 hold of every circuit built by `append`, with or without times and names. -/
theorem append_invariant {c c' : Circ α} {op : α} {qs : List Int} {t : Option Int} {n : Option Nm}
    (hn : c.keys.Nodup) (hf : Fitting sh c) (h : c.append sh op qs t n = .ok c') : c'.keys.Nodup ∧ Fitting sh c' := by
  unfold append at h
  dsimp only at h
  split at h
  · cases h
  · rename_i hq
    split at h
    · cases h
    · rename_i s hs
      split at h
      · cases h
      · rename_i hl
        cases h
        have hn' := Dict.nodup_keys_set hn (n.getD (autoName (t.getD (1 + c.maxTime)) qs))
          (⟨op, t.getD (1 + c.maxTime), qs⟩ : OpRec α)
        refine ⟨hn', ?_⟩
        rintro ⟨k, r⟩ hp
        have hg := (Dict.mem_iff_get? hn').1 hp
        rw [Dict.get?_set] at hg
        split at hg
        · cases hg
          exact ⟨s, hs, (not_ne_iff.1 hl).symm, not_not.1 hq⟩
        · exact hf (k, r) (Dict.mem_of_get? hg)

/-- C40 fails for two operations appended at the same explicit time on the same qubits: the first one is gone.  With
two operations on no qubits (global factors) this even happens to a circuit that would have been valid. -/
theorem c40_same_time_violated : ∃ c1 c2 : Circ (List (List Letter) × Nat),
    append (fun p => .ok p.1) [] ([], 0) [] (some 0) = .ok c1 ∧ append (fun p => .ok p.1) c1 ([], 1) [] (some 0) = .ok c2 ∧
    c2.map (fun p => p.2.op.2) = [1] := ⟨_, _, rfl, rfl, rfl⟩

/-- `c40_append_partial` on a two-operation circuit. -/
example : ∃ c', wiresExample.append idShape [[.i]] [5] = .ok c' ∧ c'.length = 5 := by
  obtain ⟨c', h⟩ : ∃ c', wiresExample.append idShape [[.i]] [5] = .ok c' :=
    (c40_append_ok (sh := idShape) (op := [[.i]]) rfl).2 (by decide)
  obtain ⟨n, t, h1, -⟩ := c40_append_partial (by
    intro n r hm t qs hn
    subst hn
    simp [wiresExample, autoName, Nm.pair] at hm) h
  exact ⟨c', h, by rw [h1]; rfl⟩

/-! ### C39 composing -/

/-- C39: copying gives the same names, times, operations and qubits, in the same order. -/
theorem c39_copy {c : Circ α} (hn : c.keys.Nodup) (hf : Fitting sh c) : c.copy sh = .ok c := by
  have key : ∀ (l acc : Circ α), (Dict.keys (acc ++ l)).Nodup → Fitting sh l → copyLoop sh acc l = .ok (acc ++ l) := by
    intro l
    induction l with
    | nil => intro acc _ _; simp [copyLoop]
    | cons p l ih =>
      intro acc hn hf
      obtain ⟨n, r⟩ := p
      obtain ⟨s, h1, h2, h3⟩ := hf (n, r) (by simp)
      have hna : n ∉ Dict.keys acc := by
        rw [Dict.keys_append] at hn
        intro hm
        exact (List.nodup_append.1 hn).2.2 n hm n (by simp [Dict.keys]) rfl
      have ha : append sh acc r.op r.qubits (some r.time) (some n) = .ok (acc ++ [(n, r)]) := by
        unfold append
        simp only [Option.getD_some, h1, h2, h3, not_true_eq_false, if_false, ne_eq]
        rw [Dict.set_eq_append hna]
      rw [copyLoop, ha]
      dsimp only
      rw [ih _ (by simpa using hn) fun p hp => hf p (by simp [hp])]
      simp
  exact key c [] (by simpa using hn) hf

/-- The operations of `l`, without names and times. -/
def bare (l : Circ α) : List (α × List Int) := l.map fun p => (p.2.op, p.2.qubits)

theorem appendAll_ok : ∀ (l a : Circ α), Stamped a → Fitting sh l →
    ∃ d, appendAll sh a l = .ok (a ++ d) ∧ bare d = bare l ∧ (∀ p ∈ a, ∀ p' ∈ d, p.2.time < p'.2.time) ∧
      d.Pairwise (fun p p' => p.2.time < p'.2.time)
  | [], a, _, _ => ⟨[], by simp [appendAll], rfl, by simp, List.Pairwise.nil⟩
  | (n, r) :: l, a, hs, hf => by
    obtain ⟨s, h1, h2, h3⟩ := hf (n, r) (by simp)
    obtain ⟨a', ha⟩ := (c40_append_ok (c := a) (op := r.op) (qs := r.qubits) (t := none) (n := none) h1).2 ⟨h3, h2.symm⟩
    obtain ⟨n', t, rfl, k2, k3, k4⟩ := c40_append_partial hs ha
    obtain ⟨d, m1, m2, m3, m4⟩ := appendAll_ok l _ k4 fun p hp => hf p (by simp [hp])
    refine ⟨(n', ⟨r.op, t, r.qubits⟩) :: d, ?_, ?_, ?_, ?_⟩
    · rw [appendAll, ha]; dsimp only; rw [m1]; simp
    · simp only [bare, List.map_cons] at m2 ⊢; rw [m2]
    · intro p hp p' hp'
      rcases List.mem_cons.1 hp' with rfl | hp'
      · exact k3 p hp
      · exact m3 p (by simp [hp]) p' hp'
    · exact List.pairwise_cons.2 ⟨fun p' hp' => m3 _ (by simp) p' hp', m4⟩

/-- C39: `a | b` consists of the operations of `a` (names, times and all) followed by the operations of `b` in `b`'s
time order, each later than everything before.  Partial: `a` must not contain an operation that was given by hand a
name of the form `(t, qubits)` (see `c39_named_violated`). -/
theorem c39_or_partial {a b : Circ α} (hna : a.keys.Nodup) (hfa : Fitting sh a) (hfb : Fitting sh b) (hs : Stamped a) :
    ∃ d l, orCirc sh a b = .ok (a ++ d) ∧ bare d = bare l ∧ l.Perm b ∧
      l.Pairwise (fun p p' => p.2.time ≤ p'.2.time) ∧
      (∀ p ∈ a, ∀ p' ∈ d, p.2.time < p'.2.time) ∧ d.Pairwise (fun p p' => p.2.time < p'.2.time) := by
  obtain ⟨d, h1, h2, h3, h4⟩ := appendAll_ok (sh := sh) b.inOrder a hs fun p hp => hfb p ((inOrder_perm b).mem_iff.1 hp)
  exact ⟨d, b.inOrder, by unfold orCirc; rw [c39_copy hna hfa]; exact h1, h2, inOrder_perm b, inOrder_sorted b, h3, h4⟩

/-- C39 fails if an operation was named by hand `(t, qubits)` with a `t` that is not its time: it is replaced. -/
theorem c39_named_violated : ∃ a b ab : Circ (List (List Letter)),
    append idShape [] [[.o]] [0] (some 0) (some (autoName 1 [0])) = .ok a ∧ append idShape [] [[.i]] [0] = .ok b ∧
    orCirc idShape a b = .ok ab ∧ ab.length = 1 := ⟨_, _, _, rfl, rfl, rfl, rfl⟩

/-- `c39_or_partial` on `wiresExample`. -/
example : ∃ d, orCirc idShape wiresExample [(.str "u", ⟨[[.i]], 9, [5]⟩), (.str "v", ⟨[[.i, .o]], 2, [5]⟩)] =
    .ok (wiresExample ++ d) ∧ bare d = [([[.i, .o]], [5]), ([[.i]], [5])] := ⟨_, rfl, rfl⟩

example : Dict.keys wiresExample |>.Nodup := by decide

end Circ

end Verif
