import Verif.Lemmas.Measure
/-!
# What `collapse` does to the density matrix of a circuit
-/

set_option linter.unusedSectionVars false

namespace Verif

variable {R : Type} [CommSemiring R] [StarRing R]

theorem portsAt_states : ∀ {qs : List Int}, qs.Nodup → ∀ q, portsAt (List.replicate qs.length [.o]) qs q = if q ∈ qs then [.out] else []
  | [], _, _ => rfl
  | q' :: qs, hn, q => by
    obtain ⟨h1, h2⟩ := List.nodup_cons.1 hn
    have ih := portsAt_states h2 q
    unfold portsAt at ih ⊢
    rw [List.length_cons, List.replicate_succ, List.zip_cons_cons, List.filter_cons]
    by_cases e : q' = q
    · subst e
      rw [if_neg h1] at ih
      rw [if_pos (by simp), List.flatMap_cons, ih, if_pos (by simp)]; rfl
    · rw [if_neg (by simpa using e), ih]
      exact if_congr (by simp [Ne.symm e]) rfl rfl

namespace Oper

variable {ctr : TVal R → Except Err (Arr R)} {G : TN.Glue} {k : Nat}

/-- Whether an operation is pure is known, and pure operations have a pure tensor. -/
theorem pure_known : ∀ (n : Nat) {op : Oper R}, DensBuilt ctr k n op → ∃ b, (iface ctr n).pure op = .ok b ∧ (b = true → Built ctr n false op)
  | 0, op, h => by cases op <;> exact absurd h (by simp [DensBuilt])
  | n + 1, .imm _ _, _ => ⟨false, rfl, (fun h => by cases h)⟩
  | n + 1, .pure _ _, h => by rw [DensBuilt] at h; exact ⟨true, rfl, fun _ => h.1⟩
  | n + 1, .ctrl _ _ _ _, h => by rw [DensBuilt] at h; exact ⟨true, rfl, fun _ => h.1⟩
  | n + 1, .cctrl _ _ _, h => by rw [DensBuilt] at h; exact ⟨true, rfl, fun _ => h⟩
  | n + 1, .sup _ _, h => absurd h (by simp [DensBuilt])
  | n + 1, .circ c, h => by
    rw [DensBuilt] at h
    obtain ⟨h1, ⟨s, hs⟩, h3⟩ := h
    have ih : ∀ p ∈ c, ∃ b, (iface ctr n).pure p.2.op = .ok b ∧ (b = true → Built ctr n false p.2.op) := fun p hp => pure_known n (h3 p hp).1
    have hm : ∀ l : Circ (Oper R), (∀ p ∈ l, p ∈ c) → ∃ bs, (l.mapM fun p => (iface ctr n).pure p.2.op) = .ok bs ∧
        (bs.all id = true → ∀ p ∈ l, Built ctr n false p.2.op) := by
      intro l
      induction l with
      | nil => intro _; exact ⟨[], rfl, by simp⟩
      | cons p l ihl =>
        intro hl
        obtain ⟨b, e1, e2⟩ := ih p (hl p (by simp))
        obtain ⟨bs, e3, e4⟩ := ihl fun p hp => hl p (by simp [hp])
        refine ⟨b :: bs, ?_, fun ha p' hp' => ?_⟩
        · rw [List.mapM_cons, e1, e3]; rfl
        · simp only [List.all_cons, id_eq, Bool.and_eq_true] at ha
          rcases List.mem_cons.1 hp' with rfl | hp'
          · exact e2 ha.1
          · exact e4 ha.2 p' hp'
    obtain ⟨bs, e1, e2⟩ := hm c fun _ h => h
    refine ⟨bs.all id, ?_, fun hb => ?_⟩
    · show Circ.isPure (iface ctr n) c = _
      unfold Circ.isPure Circ.isValid
      rw [hs]
      show (match c.mapM fun p => (iface ctr n).pure p.2.op with
        | .error e => Except.error e
        | .ok l => Except.ok (l.all id)) = _
      rw [e1]
    · rw [Built]
      exact ⟨h1, ⟨s, hs⟩, fun p hp => ⟨e2 hb p hp, (h3 p hp).2⟩, (fun h => by cases h)⟩

theorem prepares_nil (k n : Nat) : Prepares ctr k n ([] : Circ (Oper R)) := by
  refine ⟨?_, ?_, (fun _ _ h => by cases h), rfl⟩
  · rw [DensBuilt]
    exact ⟨List.nodup_nil, ⟨[], rfl⟩, (fun _ h => by cases h)⟩
  · rw [WholeData]
    exact fun _ h => by cases h

theorem inQubits_states {qs : List Int} (h : qs.Nodup) : inQubits (List.replicate qs.length [.o]) qs = [] := by
  unfold inQubits
  rw [List.filter_eq_nil_iff]
  intro q _
  rw [portsAt_states h]
  split <;> simp

theorem outQubits_states {qs : List Int} (h : qs.Nodup) : outQubits (List.replicate qs.length [.o]) qs = qs := by
  unfold outQubits
  rw [List.filter_eq_self]
  intro q hq
  rw [portsAt_states h, if_pos hq]; rfl

/-- A circuit with a single state in it. -/
theorem prepares_single {n : Nat} {op : Oper R} {qs : List Int} (hn : qs.Nodup) (hs : (iface ctr (n + 1)).shape op = .ok (List.replicate qs.length [.o]))
    (hd : DensBuilt ctr k (n + 1) op) (hw : WholeData (n + 1) op) :
    ∃ c', Circ.append (shapes ctr (n + 1)) [] op qs = .ok c' ∧ Prepares ctr k (n + 1) c' ∧ c'.length = 1 ∧
      (∀ w w', rho ctr (n + 1) c' w w' = densMatrix ctr (n + 1) op (qs.map w ++ qs.map w')) ∧
      (∀ q, q ∈ circOuts (shapes ctr (n + 1)) c' ↔ q ∈ qs) ∧ ∀ q, q ∈ qubitsOf c' ↔ q ∈ qs := by
  have hsd : shapeD (shapes ctr (n + 1)) op = List.replicate qs.length [.o] := by
    have : shapes ctr (n + 1) op = .ok (List.replicate qs.length [.o]) := hs
    unfold shapeD; rw [this]
  have hword : ∀ q, wireWord (shapes ctr (n + 1)) q [entry op qs] = if q ∈ qs then [.out] else [] := fun q => by
    rw [Circ.wireWord_cons]
    show portsAt (shapeD (shapes ctr (n + 1)) op) qs q ++ [] = _
    rw [List.append_nil, hsd, portsAt_states hn]
  have h0 := prepares_nil (ctr := ctr) k (n + 1)
  obtain ⟨c', he⟩ := Circ.extends_all (sh := shapes ctr (n + 1)) [entry op qs] [] h0.keys h0.fit h0.stamped fun p hp => by
    obtain rfl := List.mem_singleton.1 hp
    exact ⟨_, hs, by simp [entry], hn⟩
  obtain ⟨h1, h2, h3⟩ := h0.extend he (fun p hp => by obtain rfl := List.mem_singleton.1 hp; exact hd)
    (fun p hp => by obtain rfl := List.mem_singleton.1 hp; exact hw) (fun q => by rw [hword]; unfold Connectable; split <;> simp)
    (fun q hq => by
      rw [hword] at hq ⊢
      by_cases e : q ∈ qs
      · rw [if_pos e]
        exact ⟨(fun h => by cases h), fun h => by cases h⟩
      · rw [if_neg e] at hq; exact absurd rfl hq)
  refine ⟨c', ?_, h1, ?_, fun w w' => ?_, fun q => ?_, fun q => ?_⟩
  · rw [← Circ.appendAll_one [] op qs .nil 0]; exact he.app
  · obtain ⟨d, e1, e2, -⟩ := he.split
    have := congrArg List.length e2
    rw [e1]
    simpa [Circ.bare] using this
  · rw [h2, h0.rho_eq]
    show Act.applyDens ⟨densMatrix ctr (n + 1) op, inQubits (shapeD (shapes ctr (n + 1)) op) qs, outQubits (shapeD (shapes ctr (n + 1)) op) qs⟩
      (fun _ _ => 1) w w' = _
    rw [hsd, inQubits_states hn, outQubits_states hn]
    unfold Act.applyDens
    simp
  · rw [h3, hword]
    by_cases e : q ∈ qs
    · simp [e]
    · simp only [e, if_false, if_true, iff_false]
      exact fun h => by cases h
  · rw [he.qubits]
    refine ⟨fun h => h.elim (fun h => by cases h) ?_, fun h => Or.inr ⟨_, List.mem_singleton.2 rfl, h⟩⟩
    rintro ⟨p, hp, hq⟩
    obtain rfl := List.mem_singleton.1 hp
    exact hq

theorem outPlaces_states (m : Nat) : (outPlaces (List.replicate m [Letter.o])).length = m := by
  unfold outPlaces
  rw [places_length, List.filter_eq_self.2, List.length_replicate]
  intro w hw
  rw [List.eq_of_mem_replicate hw]; rfl

theorem inPlaces_states (m : Nat) : (inPlaces (List.replicate m [Letter.o])).length = 0 := by
  unfold inPlaces
  rw [places_length, List.filter_eq_nil_iff.2, List.length_nil]
  intro w hw
  rw [List.eq_of_mem_replicate hw]; decide

theorem states_plain (m : Nat) : ∀ w ∈ List.replicate m [Letter.o], PlainWord w := fun w hw => by
  rw [List.eq_of_mem_replicate hw]; decide

theorem newPure_states {a : Arr R} {m : Nat} (ha : a.shape = List.replicate m 2) :
    newPure (.ten (some a)) (List.replicate m [.o]) = .ok (.pure { data := .ten (some a), shape := List.replicate m [.o] } none) := by
  unfold newPure
  rw [indicesWith_endsO_plain (states_plain m), indicesWith_startsI_plain (states_plain m), outPlaces_states, inPlaces_states, Nat.zero_add, if_pos]
  show some (a.shape.map some) = _
  rw [ha, replicate_some]

theorem newImm_states {a : Arr R} {m : Nat} (ha : a.shape = List.replicate (2 * m) 2) :
    newImm (.ten (some a)) (List.replicate m [.o]) = .ok (.imm (.ten (some a)) (List.replicate m [.o])) := by
  unfold newImm
  rw [indicesWith_endsO_plain (states_plain m), indicesWith_startsI_plain (states_plain m), outPlaces_states, inPlaces_states, Nat.zero_add, if_pos]
  show some (a.shape.map some) = _
  rw [ha, replicate_some]

theorem bits_pair {l : List Int} {w w' : Int → Nat} (hw : Good w) (hw' : Good w') : Bits (l.map w ++ l.map w') (2 * l.length) := by
  rw [Nat.two_mul]; exact bits_map hw hw'

theorem bits_one {l : List Int} {w : Int → Nat} (hw : Good w) : Bits (l.map w) l.length := by
  have := bits_map (l := l) (l' := []) hw hw
  simpa using this

theorem sorted_cast {l : List Nat} (h : l.Pairwise (· < ·)) : (l.map fun k : Nat => (k : Int)).Pairwise (· < ·) := by
  rw [List.pairwise_map]
  exact h.imp fun h => by exact_mod_cast h

theorem outPlaces_sorted (s : List (List Letter)) : (outPlaces s).Pairwise (· < ·) := List.pairwise_lt_range.filter _

/-- The contracted circuit as a state on the positions of the outputs. -/
theorem Prepares.collapse_spec (hctr : Evaluates ctr) (hG : G.Sound) {n K : Nat} {c : Circ (Oper R)} (h : Prepares ctr k (n + 1) c)
    (hK : n + 2 + k ≤ K) : ∃ s c', Circ.shape (shapes ctr (n + 1)) c = .ok s ∧ collapse ctr G K (n + 1) c = .ok c' ∧
      Prepares ctr k (n + 1) c' ∧ c'.length = 1 ∧
      circOuts (shapes ctr (n + 1)) c' = (outPlaces s).map (fun k : Nat => (k : Int)) ∧
      qubitsOf c' = (outPlaces s).map (fun k : Nat => (k : Int)) ∧
      ∀ w w', Good w → Good w' → rho ctr (n + 1) c' w w' = densMatrix ctr (n + 2) (.circ c)
        (((outPlaces s).map fun k : Nat => (k : Int)).map w ++ ((outPlaces s).map fun k : Nat => (k : Int)).map w') := by
  obtain ⟨s, hs⟩ := h.valid
  have hi : inPlaces s = [] := List.length_eq_zero_iff.1 (by rw [Circ.ins_length h.fit hs, h.noIns]; rfl)
  obtain ⟨b, hb, hbb⟩ := pure_known (n + 2) h.built
  have hb : Circ.isPure (iface ctr (n + 1)) c = .ok b := hb
  have hsrt := sorted_cast (outPlaces_sorted s)
  have hnd := Circ.nodup_of_sorted hsrt
  have hlen : ((outPlaces s).map fun k : Nat => (k : Int)).length = (outPlaces s).length := List.length_map _
  -- it is enough to have the array and the operation
  have key : ∀ op : Oper R, (iface ctr (n + 1)).shape op = .ok (List.replicate (outPlaces s).length [.o]) → DensBuilt ctr k (n + 1) op →
      WholeData (n + 1) op → (∀ w w', Good w → Good w' → densMatrix ctr (n + 1) op (((outPlaces s).map fun k : Nat => (k : Int)).map w ++
        ((outPlaces s).map fun k : Nat => (k : Int)).map w') = densMatrix ctr (n + 2) (.circ c)
        (((outPlaces s).map fun k : Nat => (k : Int)).map w ++ ((outPlaces s).map fun k : Nat => (k : Int)).map w')) →
      collapse ctr G K (n + 1) c = Circ.append (iface ctr (n + 1)).shape [] op ((outPlaces s).map fun k : Nat => (k : Int)) →
      ∃ s c', Circ.shape (shapes ctr (n + 1)) c = .ok s ∧ collapse ctr G K (n + 1) c = .ok c' ∧
      Prepares ctr k (n + 1) c' ∧ c'.length = 1 ∧
      circOuts (shapes ctr (n + 1)) c' = (outPlaces s).map (fun k : Nat => (k : Int)) ∧
      qubitsOf c' = (outPlaces s).map (fun k : Nat => (k : Int)) ∧
      ∀ w w', Good w → Good w' → rho ctr (n + 1) c' w w' = densMatrix ctr (n + 2) (.circ c)
        (((outPlaces s).map fun k : Nat => (k : Int)).map w ++ ((outPlaces s).map fun k : Nat => (k : Int)).map w') := by
    intro op h1 h2 h3 h4 h5
    obtain ⟨c', k1, k2, k3, k4, k5, k6⟩ := prepares_single hnd (by rw [hlen]; exact h1) h2 h3
    refine ⟨s, c', hs, h5.trans k1, k2, k3, Circ.sorted_unique (Circ.circOuts_sorted _ _) hsrt k5,
      Circ.sorted_unique (Circ.qubitsOf_sorted _) hsrt k6, fun w w' hw hw' => ?_⟩
    rw [k4, h4 w w' hw hw']
  have hcol : collapse ctr G K (n + 1) c =
      match if b then (iface ctr (n + 2)).tensor (.circ c) else density ctr G K (n + 2) (.circ c) with
      | .error e => .error e
      | .ok t =>
        match ctr t with
        | .error e => .error e
        | .ok a =>
          match if b then newPure (.ten (some a)) (List.replicate (outPlaces s).length [.o])
            else newImm (.ten (some a)) (List.replicate (outPlaces s).length [.o]) with
          | .error e => .error e
          | .ok op => Circ.append (iface ctr (n + 1)).shape [] op ((outPlaces s).map fun k : Nat => (k : Int)) := by
    have hs : Circ.shape (iface ctr (n + 1)).shape c = .ok s := hs
    unfold collapse
    rw [hs]
    simp only [indicesWith_startsIn, indicesWith_endsOut, hi, ne_eq, not_true_eq_false, if_false, hb]
    rfl
  cases b with
  | true =>
    have hB := hbb rfl
    obtain ⟨s', t, d, h1, -, h3⟩ := paired_built hctr hG (n + 2) false (.circ c) (densFlat_of hctr (n + 2) h.built hK) hB
    obtain rfl : s = s' := by
      have e : Circ.shape (shapes ctr (n + 1)) c = .ok s' := h1.shape
      rw [hs] at e; cases e; rfl
    rw [hi, List.length_nil, Nat.add_zero] at h3
    have hdm := h1.dims
    have hent := h1.entries
    rw [hi, List.length_nil, Nat.add_zero] at hdm hent
    obtain ⟨a, e1, e2, e3⟩ := hctr t _ (hdm.trans (by rw [replicate_some])) h1.whole
    have ht : (iface ctr (n + 2)).tensor (.circ c) = .ok t := h1.tensor
    refine key (.pure { data := .ten (some a), shape := List.replicate (outPlaces s).length [.o] } none) rfl ?_ trivial (fun w w' hw hw' => ?_) ?_
    · rw [DensBuilt, Built]
      refine ⟨⟨⟨states_plain _, ?_, ?_, (fun b k h => by cases h), (fun h => by cases h)⟩, (fun h => by cases h)⟩, TVal.flat_ten _ _⟩
      · show some (a.shape.map some) = _
        rw [e2, outPlaces_states, inPlaces_states, replicate_some, Nat.add_zero]
      · show TVal.Whole (.ten (some a))
        rw [TVal.Whole]; trivial
    · have b1 := bits_one (l := (outPlaces s).map fun k : Nat => (k : Int)) hw
      have b2 := bits_one (l := (outPlaces s).map fun k : Nat => (k : Int)) hw'
      rw [hlen] at b1 b2
      rw [h3 _ _ b1 b2]
      show pairMat (TVal.tot (.ten (some a))) ((((outPlaces s).map fun k : Nat => (k : Int)).map w ++
        ((outPlaces s).map fun k : Nat => (k : Int)).map w').length / 2) _ = _
      have hl2 : (((outPlaces s).map fun k : Nat => (k : Int)).map w ++ ((outPlaces s).map fun k : Nat => (k : Int)).map w').length / 2 =
          (((outPlaces s).map fun k : Nat => (k : Int)).map w).length := by
        rw [List.length_append, b1.1, b2.1]; omega
      unfold pairMat
      rw [hl2, List.take_left, List.drop_left, TVal.tot, e3 _ b1.inRange, e3 _ b2.inRange, hent _ b1, hent _ b2]
    · rw [hcol, if_pos rfl, ht]
      show (match ctr t with
        | .error e => Except.error e
        | .ok a =>
          match if true = true then newPure (.ten (some a)) (List.replicate (outPlaces s).length [.o])
            else newImm (.ten (some a)) (List.replicate (outPlaces s).length [.o]) with
          | .error e => .error e
          | .ok op => Circ.append (iface ctr (n + 1)).shape [] op ((outPlaces s).map fun k : Nat => (k : Int))) = _
      rw [e1]
      show (match if true = true then newPure (.ten (some a)) (List.replicate (outPlaces s).length [.o])
            else newImm (.ten (some a)) (List.replicate (outPlaces s).length [.o]) with
          | .error e => Except.error e
          | .ok op => Circ.append (iface ctr (n + 1)).shape [] op ((outPlaces s).map fun k : Nat => (k : Int))) = _
      rw [if_pos rfl, newPure_states e2]
  | false =>
    obtain ⟨s', d, a, h1, h2, e1, e2, e3⟩ := density_contract hctr hG h.built h.whole hK
    obtain rfl : s = s' := by
      have e : Circ.shape (shapes ctr (n + 1)) c = .ok s' := h1
      rw [hs] at e; cases e; rfl
    rw [hi, List.length_nil, Nat.add_zero] at e2 e3
    refine key (.imm (.ten (some a)) (List.replicate (outPlaces s).length [.o])) rfl ?_ ?_ (fun w w' hw hw' => ?_) ?_
    · rw [DensBuilt, outPlaces_states, inPlaces_states, Nat.add_zero]
      show some (a.shape.map some) = _
      rw [e2, replicate_some]
    · rw [WholeData, TVal.Whole]; trivial
    · have b1 := bits_pair (l := (outPlaces s).map fun k : Nat => (k : Int)) hw hw'
      rw [hlen] at b1
      rw [← e3 _ b1]
      show TVal.tot (.ten (some a)) _ = _
      rw [TVal.tot]
    · rw [hcol, if_neg (by decide), h2]
      show (match ctr d with
        | .error e => Except.error e
        | .ok a =>
          match if false = true then newPure (.ten (some a)) (List.replicate (outPlaces s).length [.o])
            else newImm (.ten (some a)) (List.replicate (outPlaces s).length [.o]) with
          | .error e => .error e
          | .ok op => Circ.append (iface ctr (n + 1)).shape [] op ((outPlaces s).map fun k : Nat => (k : Int))) = _
      rw [e1]
      show (match if false = true then newPure (.ten (some a)) (List.replicate (outPlaces s).length [.o])
            else newImm (.ten (some a)) (List.replicate (outPlaces s).length [.o]) with
          | .error e => Except.error e
          | .ok op => Circ.append (iface ctr (n + 1)).shape [] op ((outPlaces s).map fun k : Nat => (k : Int))) = _
      rw [if_neg (by decide), newImm_states e2]

end Oper

end Verif
