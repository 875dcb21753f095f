import Verif.Lemmas.NestCirc
/-!
# Appending operations at the end of a circuit
-/

set_option linter.unusedSectionVars false

namespace Verif

namespace Circ

variable {α : Type} {sh : ShapeFn α}

theorem orderedInsert_append {β : Type} {r : β → β → Prop} [DecidableRel r] {a : β} {Y : List β} (h : ∀ b ∈ Y, r a b) :
    ∀ X : List β, (X ++ Y).orderedInsert r a = X.orderedInsert r a ++ Y
  | [] => by
    cases Y with
    | nil => rfl
    | cons b Y => simp [List.orderedInsert, h b (by simp)]
  | x :: X => by
    rw [List.cons_append, List.orderedInsert, List.orderedInsert]
    split
    · rfl
    · rw [orderedInsert_append h X]; rfl

theorem insertionSort_append {β : Type} {r : β → β → Prop} [DecidableRel r] : ∀ {X Y : List β}, (∀ a ∈ X, ∀ b ∈ Y, r a b) →
    (X ++ Y).insertionSort r = X.insertionSort r ++ Y.insertionSort r
  | [], _, _ => rfl
  | a :: X, Y, h => by
    show List.orderedInsert r a ((X ++ Y).insertionSort r) = List.orderedInsert r a (X.insertionSort r) ++ _
    rw [insertionSort_append fun b hb => h b (by simp [hb])]
    exact orderedInsert_append (fun b hb => h a (by simp) b ((List.mem_insertionSort r).1 hb)) _

/-- Operations that happen later come later. -/
theorem timeSorted_append {c d : Circ α} (h : ∀ p ∈ c, ∀ p' ∈ d, p.2.time < p'.2.time) :
    timeSorted (c ++ d) = timeSorted c ++ timeSorted d :=
  insertionSort_append fun p hp p' hp' => (h p hp p' hp').le

theorem timeSorted_self {d : Circ α} (h : d.Pairwise fun p p' => p.2.time < p'.2.time) : timeSorted d = d :=
  (h.imp fun h => h.le).insertionSort_eq

/-- The operations `l` have been appended to `c`, one by one, without times and names. -/
structure Extends (sh : ShapeFn α) (c l c' : Circ α) : Prop where
  app : appendAll sh c l = .ok c'
  keys : Dict.keys c' |>.Nodup
  fit : Fitting sh c'
  stamped : Stamped c'
  split : ∃ d, c' = c ++ d ∧ bare d = bare l ∧ (∀ p ∈ c, ∀ p' ∈ d, p.2.time < p'.2.time) ∧
    d.Pairwise fun p p' => p.2.time < p'.2.time

theorem extends_all : ∀ (l c : Circ α), (Dict.keys c).Nodup → Fitting sh c → Stamped c → Fitting sh l → ∃ c', Extends sh c l c'
  | [], c, hk, hf, hs, _ => ⟨c, rfl, hk, hf, hs, [], by simp, rfl, by simp, List.Pairwise.nil⟩
  | (n, r) :: l, c, hk, hf, hs, hl => by
    obtain ⟨s, h1, h2, h3⟩ := hl (n, r) (by simp)
    obtain ⟨a', ha⟩ := (c40_append_ok (c := c) (op := r.op) (qs := r.qubits) (t := none) (n := none) h1).2 ⟨h3, h2.symm⟩
    obtain ⟨n', t, e, k2, k3, k4⟩ := c40_append_partial hs ha
    obtain ⟨i1, i2⟩ := append_invariant hk hf ha
    obtain ⟨c', e1, e2, e3, e4, d, e5, e6, e7, e8⟩ := extends_all l a' i1 i2 k4 fun p hp => hl p (by simp [hp])
    subst e
    refine ⟨c', ?_, e2, e3, e4, (n', ⟨r.op, t, r.qubits⟩) :: d, ?_, ?_, ?_, ?_⟩
    · rw [appendAll, ha]; exact e1
    · rw [e5]; simp
    · simp only [bare, List.map_cons] at e6 ⊢; rw [e6]
    · intro p hp p' hp'
      rcases List.mem_cons.1 hp' with rfl | hp'
      · exact k3 p hp
      · exact e7 p (by simp [hp]) p' hp'
    · exact List.pairwise_cons.2 ⟨fun p' hp' => e7 _ (by simp) p' hp', e8⟩

theorem appendAll_append : ∀ (l l' c : Circ α), appendAll sh c (l ++ l') =
    match appendAll sh c l with
    | .error e => .error e
    | .ok c' => appendAll sh c' l'
  | [], l', c => rfl
  | (n, r) :: l, l', c => by
    rw [List.cons_append, appendAll, appendAll]
    cases c.append sh r.op r.qubits with
    | error e => rfl
    | ok c' => exact appendAll_append l l' c'

theorem appendAll_one (c : Circ α) (op : α) (qs : List Int) (n : Nm) (t : Int) :
    appendAll sh c [(n, ⟨op, t, qs⟩)] = c.append sh op qs := by
  rw [appendAll]
  cases c.append sh op qs <;> rfl

section

variable {c l c' : Circ α} (h : Extends sh c l c')

include h

theorem Extends.acts {R : Type} (ten : α → List Nat → R) : (timeSorted c').map (fun p => actOf sh ten p.2) =
    (timeSorted c).map (fun p => actOf sh ten p.2) ++ l.map fun p => actOf sh ten p.2 := by
  obtain ⟨d, rfl, h2, h3, h4⟩ := h.split
  rw [timeSorted_append h3, timeSorted_self h4, List.map_append]
  congr 1
  have : ∀ l : Circ α, l.map (fun p => actOf sh ten p.2) = (bare l).map fun p => actOf sh ten ⟨p.1, 0, p.2⟩ := fun l => by
    unfold bare; rw [List.map_map]; rfl
  rw [this, h2, ← this]

theorem Extends.sorted_bare : bare (timeSorted c') = bare (timeSorted c) ++ bare l := by
  obtain ⟨d, rfl, h2, h3, h4⟩ := h.split
  rw [timeSorted_append h3, timeSorted_self h4, ← h2]
  simp [bare]

theorem Extends.word (q : Int) : wireWord sh q (timeSorted c') = wireWord sh q (timeSorted c) ++ wireWord sh q l := by
  have : ∀ l : Circ α, wireWord sh q l = (bare l).flatMap fun p => portsAt (shapeD sh p.1) p.2 q := fun l => by
    unfold bare wireWord; rw [List.flatMap_map]
  rw [this, this, this, h.sorted_bare, List.flatMap_append]

theorem Extends.mem {p : Nm × OpRec α} (hp : p ∈ c') : p ∈ c ∨ ∃ p' ∈ l, p.2.op = p'.2.op ∧ p.2.qubits = p'.2.qubits := by
  obtain ⟨d, rfl, h2, -⟩ := h.split
  refine (List.mem_append.1 hp).imp id fun hp => ?_
  have : (p.2.op, p.2.qubits) ∈ bare l := by rw [← h2]; exact List.mem_map.2 ⟨p, hp, rfl⟩
  obtain ⟨p', hp', e⟩ := List.mem_map.1 this
  exact ⟨p', hp', (congrArg Prod.fst e).symm, (congrArg Prod.snd e).symm⟩

theorem Extends.qubits (q : Int) : q ∈ qubitsOf c' ↔ q ∈ qubitsOf c ∨ ∃ p ∈ l, q ∈ p.2.qubits := by
  obtain ⟨d, rfl, h2, -⟩ := h.split
  have : (∃ p ∈ d, q ∈ p.2.qubits) ↔ ∃ p ∈ l, q ∈ p.2.qubits := by
    have key : ∀ l : Circ α, (∃ p ∈ l, q ∈ p.2.qubits) ↔ ∃ p ∈ bare l, q ∈ p.2 := fun l => by
      unfold bare; simp
    rw [key, h2, ← key]
  rw [mem_qubitsOf, mem_qubitsOf, ← this]
  simp only [List.mem_append, or_and_right, exists_or]

theorem Extends.shape (hv : ∃ s, c.shape sh = .ok s) (hf : Fitting sh c)
    (hc : ∀ q, Connectable (wireWord sh q (timeSorted c) ++ wireWord sh q l)) : ∃ s, c'.shape sh = .ok s := by
  rw [c35_shape_iff h.fit]
  rw [c35_shape_iff hf] at hv
  intro q
  obtain ⟨d, rfl, h2, h3, h4⟩ := h.split
  obtain ⟨t, h5, -⟩ := hv q
  refine ⟨t ++ d.filter fun p => q ∈ p.2.qubits, ⟨?_, ?_⟩, ?_⟩
  · rw [List.filter_append]; exact h5.1.append_right _
  · refine List.pairwise_append.2 ⟨h5.2, h4.filter _, fun p hp p' hp' => ?_⟩
    exact h3 p (List.mem_filter.1 (h5.1.mem_iff.1 hp)).1 p' (List.mem_filter.1 hp').1
  · have e1 := (wired_of_valid hv (timeSorted_perm c) (timeSorted_sorted c)).2 q t h5
    have e2 : wireWord sh q (d.filter fun p => q ∈ p.2.qubits) = wireWord sh q l := by
      have : ∀ l : Circ α, wireWord sh q l = (bare l).flatMap fun p => portsAt (shapeD sh p.1) p.2 q := fun l => by
        unfold bare wireWord; rw [List.flatMap_map]
      rw [this l, ← h2, ← this]
      unfold wireWord
      clear h2 h3 h4 h
      induction d with
      | nil => rfl
      | cons p d ih =>
        rw [List.filter_cons]
        by_cases hq : q ∈ p.2.qubits
        · simp only [hq, decide_true, if_true, List.flatMap_cons, ih]
        · simp only [hq, decide_false, Bool.false_eq_true, if_false, List.flatMap_cons, ih, portsAt_nil hq, List.nil_append]
    show Connectable (List.flatMap _ (t ++ _))
    rw [List.flatMap_append]
    have := hc q
    rw [← e1, ← e2] at this
    exact this

end

end Circ

end Verif
