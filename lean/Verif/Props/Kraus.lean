import Verif.Lemmas.Reshape
import Verif.Props.Measure
/-!
# C50 Operations given by arrays and by Kraus operators
-/

set_option linter.unusedSectionVars false

namespace Verif

namespace Oper

variable {R : Type}

/-! ### Arrays -/

theorem outPlaces_uniform (w : List Letter) (n : Nat) : (outPlaces (List.replicate n w)).length = if IsOut w then n else 0 := by
  unfold outPlaces
  rw [places_length]
  split
  · rename_i h; rw [List.filter_eq_self.2 fun a ha => by rw [List.eq_of_mem_replicate ha]; exact decide_eq_true h, List.length_replicate]
  · rename_i h
    rw [List.filter_eq_nil_iff.2 fun a ha => by rw [List.eq_of_mem_replicate ha]; simpa using h]; rfl

theorem inPlaces_uniform (w : List Letter) (n : Nat) : (inPlaces (List.replicate n w)).length = if IsIn w then n else 0 := by
  unfold inPlaces
  rw [places_length]
  split
  · rename_i h; rw [List.filter_eq_self.2 fun a ha => by rw [List.eq_of_mem_replicate ha]; exact decide_eq_true h, List.length_replicate]
  · rename_i h
    rw [List.filter_eq_nil_iff.2 fun a ha => by rw [List.eq_of_mem_replicate ha]; simpa using h]; rfl

/-- **C50.**  `ImmutableOperation(data, shape)` accepts exactly the arrays with `4 ^ (inputs + outputs)` entries and keeps
their order; all others raise `ValueError`. -/
theorem c50_immutable {a : Arr R} {s : List (List Letter)} (hs : ∀ w ∈ s, PlainWord w) :
    (a.shape.prod = 2 ^ (2 * ((inPlaces s).length + (outPlaces s).length)) → ∃ b, newImmArr a s = .ok (.imm (.ten (some b)) s) ∧
      b.shape = List.replicate (2 * ((inPlaces s).length + (outPlaces s).length)) 2 ∧
      ∀ idx, Bits idx (2 * ((inPlaces s).length + (outPlaces s).length)) → b.get idx = a.get (unoffset a.shape (binary idx))) ∧
    (a.shape.prod ≠ 2 ^ (2 * ((inPlaces s).length + (outPlaces s).length)) → newImmArr a s = .error .value) := by
  unfold newImmArr
  rw [indicesWith_startsI_plain hs, indicesWith_endsO_plain hs]
  refine ⟨fun h => ?_, fun h => by rw [reshape_error h]⟩
  obtain ⟨b, h1, h2, h3⟩ := reshape_bits h
  exact ⟨b, by rw [h1], h2, h3⟩

/-- **C50** for `PureOperation(data, shape)`. -/
theorem c50_pure {a : Arr R} {s : List (List Letter)} (hs : ∀ w ∈ s, PlainWord w) :
    (a.shape.prod = 2 ^ ((inPlaces s).length + (outPlaces s).length) → ∃ b, newPureArr a s = .ok (.pure { data := .ten (some b), shape := s } none) ∧
      b.shape = List.replicate ((inPlaces s).length + (outPlaces s).length) 2 ∧
      ∀ idx, Bits idx ((inPlaces s).length + (outPlaces s).length) → b.get idx = a.get (unoffset a.shape (binary idx))) ∧
    (a.shape.prod ≠ 2 ^ ((inPlaces s).length + (outPlaces s).length) → newPureArr a s = .error .value) := by
  unfold newPureArr
  rw [indicesWith_startsI_plain hs, indicesWith_endsO_plain hs]
  refine ⟨fun h => ?_, fun h => by rw [reshape_error h]⟩
  obtain ⟨b, h1, h2, h3⟩ := reshape_bits h
  exact ⟨b, by rw [h1], h2, h3⟩

/-- **C50** for `ControlledOperation(data, shape)`. -/
theorem c50_controlled {a : Arr R} {s : List (List Letter)} (hs : ∀ w ∈ s, CtrlWord w) :
    (a.shape.prod = 2 ^ ctrlRank s → ∃ b, newCtrlArr a s = .ok (.ctrl (.ten (some b)) s false none) ∧ b.shape = List.replicate (ctrlRank s) 2 ∧
      ∀ idx, Bits idx (ctrlRank s) → b.get idx = a.get (unoffset a.shape (binary idx))) ∧
    (a.shape.prod ≠ 2 ^ ctrlRank s → newCtrlArr a s = .error .value) := by
  have e : (indicesWith Letter.isC s).length + (indicesWith Letter.startsI s).length + (indicesWith Letter.endsO s).length = ctrlRank s := by
    rw [indicesWith_isC, indicesWith_startsI hs, indicesWith_endsO hs]
    unfold ctrlRank
    omega
  unfold newCtrlArr
  rw [e]
  refine ⟨fun h => ?_, fun h => by rw [reshape_error h]⟩
  obtain ⟨b, h1, h2, h3⟩ := reshape_bits h
  exact ⟨b, by rw [h1], h2, h3⟩

variable [CommSemiring R] [StarRing R] {ctr : TVal R → Except Err (Arr R)}

theorem matrix_ten {n : Nat} {b : Arr R} {s : List (List Letter)} {q : Option (PureRec R)} :
    matrix ctr (n + 1) (.pure { data := .ten (some b), shape := s } q) = b.get := by
  show TVal.tot (.ten (some b)) = b.get
  rw [TVal.tot]

theorem dens_ten {n : Nat} {b : Arr R} {s : List (List Letter)} : densMatrix ctr (n + 1) (.imm (.ten (some b)) s) = b.get := by
  show TVal.tot (.ten (some b)) = b.get
  rw [TVal.tot]

theorem ten_shape (b : Arr R) {n : Nat} (h : b.shape = List.replicate n 2) : TVal.shape (.ten (some b)) = some (List.replicate n (some 2)) := by
  show some (b.shape.map some) = _
  rw [h, List.map_replicate]

/-- **C50.**  `Unitary(n, U)` with a `2 ^ n` by `2 ^ n` array acts as the matrix `U`. -/
theorem c50_unitary {n : Nat} {a : Arr R} (h : a.shape = [2 ^ n, 2 ^ n]) : ∃ p, unitary n a = .ok (.pure p none) ∧ PureOk p ∧
    p.shape = List.replicate n [.i, .o] ∧ ∀ (m : Nat) (o i : List Nat), Bits o n → Bits i n →
      matrix ctr (m + 1) (.pure p none) (o ++ i) = a.get [binary o, binary i] := by
  have hw : ∀ w ∈ List.replicate n [Letter.i, .o], PlainWord w := fun w hw => by
    rw [List.eq_of_mem_replicate hw]; decide
  have hi : (inPlaces (List.replicate n [Letter.i, .o])).length = n := by rw [inPlaces_uniform]; rfl
  have ho : (outPlaces (List.replicate n [Letter.i, .o])).length = n := by rw [outPlaces_uniform]; rfl
  obtain ⟨b, h1, h2, h3⟩ := (c50_pure (a := a) hw).1 (by rw [h, hi, ho]; simp [pow_add])
  rw [hi, ho] at h2 h3
  refine ⟨_, h1, ⟨hw, by rw [hi, ho]; exact ten_shape b h2, by rw [TVal.Whole]; trivial, (fun b k h => by cases h), (fun h => by cases h)⟩, rfl,
    fun m o i hbo hbi => ?_⟩
  rw [matrix_ten, h3 _ (hbo.append hbi), unoffset_matrix h hbi]

/-- **C50.**  `PureState(n, v)` with a vector prepares `v`. -/
theorem c50_pure_state {n : Nat} {a : Arr R} (h : a.shape = [2 ^ n]) : ∃ p, pureState n a = .ok (.pure p none) ∧ PureOk p ∧
    p.shape = List.replicate n [.o] ∧ ∀ (m : Nat) (o : List Nat), Bits o n → matrix ctr (m + 1) (.pure p none) o = a.get [binary o] := by
  have hw : ∀ w ∈ List.replicate n [Letter.o], PlainWord w := fun w hw => by
    rw [List.eq_of_mem_replicate hw]; decide
  have hi : (inPlaces (List.replicate n [Letter.o])).length = 0 := by rw [inPlaces_uniform]; rfl
  have ho : (outPlaces (List.replicate n [Letter.o])).length = n := by rw [outPlaces_uniform]; rfl
  obtain ⟨b, h1, h2, h3⟩ := (c50_pure (a := a) hw).1 (by rw [h, hi, ho]; simp)
  rw [hi, ho, Nat.zero_add] at h2 h3
  refine ⟨_, h1, ⟨hw, by rw [hi, ho]; exact ten_shape b h2, by rw [TVal.Whole]; trivial, (fun b k h => by cases h), (fun h => by cases h)⟩, rfl,
    fun m o hbo => ?_⟩
  rw [matrix_ten, h3 _ hbo, h, unoffset_vec]

/-- **C50.**  `State(n, ρ)` with a matrix prepares the density matrix `ρ`. -/
theorem c50_state {n : Nat} {a : Arr R} (h : a.shape = [2 ^ n, 2 ^ n]) : ∃ op, state n a = .ok op ∧
    ∀ k m : Nat, DensBuilt ctr k (m + 1) op ∧ (iface ctr (m + 1)).shape op = .ok (List.replicate n [.o]) ∧
      ∀ o o' : List Nat, Bits o n → Bits o' n → densMatrix ctr (m + 1) op (o ++ o') = a.get [binary o, binary o'] := by
  have hw : ∀ w ∈ List.replicate n [Letter.o], PlainWord w := fun w hw => by
    rw [List.eq_of_mem_replicate hw]; decide
  have hi : (inPlaces (List.replicate n [Letter.o])).length = 0 := by rw [inPlaces_uniform]; rfl
  have ho : (outPlaces (List.replicate n [Letter.o])).length = n := by rw [outPlaces_uniform]; rfl
  obtain ⟨b, h1, h2, h3⟩ := (c50_immutable (a := a) hw).1 (by rw [h, hi, ho]; simp [pow_add, two_mul])
  rw [hi, ho, Nat.zero_add] at h2 h3
  refine ⟨_, h1, fun k m => ⟨?_, rfl, fun o o' hbo hbo' => ?_⟩⟩
  · rw [DensBuilt, hi, ho, Nat.add_zero]; exact ten_shape b h2
  · rw [dens_ten, h3 _ (by rw [two_mul]; exact hbo.append hbo'), unoffset_matrix h hbo']

/-- **C50.**  `PureMeas(n, v)` with a vector is the row `v`. -/
theorem c50_pure_meas {n : Nat} {a : Arr R} (h : a.shape = [2 ^ n]) : ∃ p, pureMeas n a = .ok (.pure p none) ∧ PureOk p ∧
    p.shape = List.replicate n [.i] ∧ ∀ (m : Nat) (i : List Nat), Bits i n → matrix ctr (m + 1) (.pure p none) i = a.get [binary i] := by
  have hw : ∀ w ∈ List.replicate n [Letter.i], PlainWord w := fun w hw => by
    rw [List.eq_of_mem_replicate hw]; decide
  have hi : (inPlaces (List.replicate n [Letter.i])).length = n := by rw [inPlaces_uniform]; rfl
  have ho : (outPlaces (List.replicate n [Letter.i])).length = 0 := by rw [outPlaces_uniform]; rfl
  obtain ⟨b, h1, h2, h3⟩ := (c50_pure (a := a) hw).1 (by rw [h, hi, ho]; simp)
  rw [hi, ho, Nat.add_zero] at h2 h3
  refine ⟨_, h1, ⟨hw, by rw [hi, ho, Nat.zero_add]; exact ten_shape b h2, by rw [TVal.Whole]; trivial, (fun b k h => by cases h), (fun h => by cases h)⟩, rfl,
    fun m i hbi => ?_⟩
  rw [matrix_ten, h3 _ hbi, h, unoffset_vec]

/-- **C50.**  `Measurement(n, M)` with a matrix is the functional `ρ ↦ Σ M[i, i'] ρ[i, i']`. -/
theorem c50_measurement {n : Nat} {a : Arr R} (h : a.shape = [2 ^ n, 2 ^ n]) : ∃ op, measurement n a = .ok op ∧
    ∀ k m : Nat, DensBuilt ctr k (m + 1) op ∧ (iface ctr (m + 1)).shape op = .ok (List.replicate n [.i]) ∧
      ∀ i i' : List Nat, Bits i n → Bits i' n → densMatrix ctr (m + 1) op (i ++ i') = a.get [binary i, binary i'] := by
  have hw : ∀ w ∈ List.replicate n [Letter.i], PlainWord w := fun w hw => by
    rw [List.eq_of_mem_replicate hw]; decide
  have hi : (inPlaces (List.replicate n [Letter.i])).length = n := by rw [inPlaces_uniform]; rfl
  have ho : (outPlaces (List.replicate n [Letter.i])).length = 0 := by rw [outPlaces_uniform]; rfl
  obtain ⟨b, h1, h2, h3⟩ := (c50_immutable (a := a) hw).1 (by rw [h, hi, ho]; simp [pow_add, two_mul])
  rw [hi, ho, Nat.add_zero] at h2 h3
  refine ⟨_, h1, fun k m => ⟨?_, rfl, fun i i' hbi hbi' => ?_⟩⟩
  · rw [DensBuilt, hi, ho, Nat.zero_add]; exact ten_shape b h2
  · rw [dens_ten, h3 _ (by rw [two_mul]; exact hbi.append hbi'), unoffset_matrix h hbi']

/-- **C50.**  `Channel(n, D)` with an array with one axis per index keeps it. -/
theorem c50_channel {n : Nat} {a : Arr R} (h : a.shape = List.replicate (2 * (n + n)) 2) : ∃ op, channel n a = .ok op ∧
    ∀ k m : Nat, DensBuilt ctr k (m + 1) op ∧ (iface ctr (m + 1)).shape op = .ok (List.replicate n [.i, .o]) ∧
      ∀ idx : List Nat, Bits idx (2 * (n + n)) → densMatrix ctr (m + 1) op idx = a.get idx := by
  have hw : ∀ w ∈ List.replicate n [Letter.i, .o], PlainWord w := fun w hw => by
    rw [List.eq_of_mem_replicate hw]; decide
  have hi : (inPlaces (List.replicate n [Letter.i, .o])).length = n := by rw [inPlaces_uniform]; rfl
  have ho : (outPlaces (List.replicate n [Letter.i, .o])).length = n := by rw [outPlaces_uniform]; rfl
  obtain ⟨b, h1, h2, h3⟩ := (c50_immutable (a := a) hw).1 (by rw [h, hi, ho, List.prod_replicate])
  rw [hi, ho] at h2 h3
  refine ⟨_, h1, fun k m => ⟨?_, rfl, fun idx hidx => ?_⟩⟩
  · rw [DensBuilt, hi, ho]; exact ten_shape b h2
  · rw [dens_ten, h3 _ hidx, unoffset_self h hidx]

/-- **C50.**  `Diagonal(n, d)` with a vector acts as the diagonal matrix `d`. -/
theorem c50_diagonal {n : Nat} {a : Arr R} (h : a.shape = [2 ^ n]) : ∃ b s, diagonal n a = .ok (.ctrl (.ten (some b)) s false none) ∧
    s = List.replicate n [.c] ∧ CtrlOk (.ten (some b)) s false ∧ ∀ (m : Nat) (o i : List Nat), Bits o n → Bits i n →
      matrix ctr (m + 1) (.ctrl (.ten (some b)) s false none) (o ++ i) = if o = i then a.get [binary o] else 0 := by
  have hw : ∀ w ∈ List.replicate n [Letter.c], CtrlWord w := fun w hw => by
    rw [List.eq_of_mem_replicate hw]; decide
  have pl : ∀ (P : List Letter → Prop) [DecidablePred P], P [.c] → places P (List.replicate n [Letter.c]) = List.range n := fun P _ hP => by
    unfold places
    rw [List.length_replicate]
    exact List.filter_eq_self.2 fun k hk => by simpa [List.mem_range.1 hk] using hP
  have hi : inPlaces (List.replicate n [Letter.c]) = List.range n := pl _ (by decide)
  have ho : outPlaces (List.replicate n [Letter.c]) = List.range n := pl _ (by decide)
  have hc : ctrlPlaces (List.replicate n [Letter.c]) = List.range n := pl _ (by decide)
  have ef : (List.range n).filter (· ∉ List.range n) = [] := List.filter_eq_nil_iff.2 fun k hk => by simpa using hk
  have hr : ctrlRank (List.replicate n [Letter.c]) = n := by
    unfold ctrlRank
    rw [hi, ho, hc, ef]
    simp
  obtain ⟨b, h1, h2, h3⟩ := (c50_controlled (a := a) hw).1 (by rw [h, hr]; simp)
  rw [hr] at h2 h3
  refine ⟨b, _, h1, rfl, ⟨hw, by rw [hr]; exact ten_shape b h2, by rw [TVal.Whole]; trivial, (fun h => by cases h)⟩, fun m o i hbo hbi => ?_⟩
  show blockMat (TVal.tot (.ten (some b))) _ (o ++ i) = _
  rw [TVal.tot]
  unfold blockMat
  rw [hi, ho, hc]
  dsimp only
  have hn : (List.range n).Nodup := List.nodup_range
  have eu : (List.range n).map (readAt (List.range n) (o ++ i)) = o := by
    rw [map_readAt hn (by simp [hbo.1]), List.length_range, List.take_left' hbo.1]
  have ev : (List.range n).map (readAt (List.range n) ((o ++ i).drop (List.range n).length)) = i := by
    rw [List.length_range, List.drop_left' hbo.1, map_readAt hn (by simp [hbi.1]), List.length_range, List.take_of_length_le (by rw [hbi.1])]
  rw [ef, eu, List.map_nil, List.map_nil, List.append_nil, List.append_nil, h3 o hbo, h, unoffset_vec]
  refine if_congr ?_ rfl rfl
  rw [← List.map_inj_left, eu, ev]

/-! ### Kraus operators -/

/-- An operator of one of the two accepted shapes. -/
def KrausShape (lin lout : Nat) (a : Arr R) : Prop := a.shape = List.replicate (lin + lout) 2 ∨ a.shape = [2 ^ lout, 2 ^ lin]

theorem kraus_reshape {lin lout : Nat} {a : Arr R} (h : KrausShape lin lout a) : ∃ b, a.reshape (List.replicate (lin + lout) 2) = .ok b ∧
    ∀ idx, Bits idx (lin + lout) → b.get idx = krausEntry lout a idx := by
  have hp : a.shape.prod = 2 ^ (lin + lout) := by
    rcases h with h | h <;> rw [h]
    · rw [List.prod_replicate]
    · simp [pow_add, Nat.mul_comm]
  obtain ⟨b, h1, -, h3⟩ := reshape_bits hp
  refine ⟨b, h1, fun idx hi => ?_⟩
  rw [h3 idx hi]
  unfold krausEntry
  rw [hi.1]
  split
  · rename_i e; exact unoffset_self e hi
  · rename_i e
    have e2 := h.resolve_left e
    have hb : Bits (idx.drop lout) lin := ⟨by rw [List.length_drop, hi.1]; omega, fun b hb => hi.2 b (List.mem_of_mem_drop hb)⟩
    have := unoffset_matrix e2 (o := idx.take lout) hb
    rwa [List.take_append_drop] at this

theorem krausLoop_ok {lin lout : Nat} : ∀ {Ks : List (Arr R)}, (∀ a ∈ Ks, KrausShape lin lout a) → ∀ t : Arr R,
    ∃ r, krausLoop lin lout (Ks.map (.array false)) t = .ok r ∧ r.shape = t.shape ∧
      ∀ x y, Bits x (lin + lout) → Bits y (lin + lout) →
        r.get (x ++ y) = t.get (x ++ y) + (Ks.map fun a => krausEntry lout a x * star (krausEntry lout a y)).sum
  | [], _, t => ⟨t, rfl, rfl, fun x y _ _ => by simp⟩
  | a :: Ks, h, t => by
    obtain ⟨b, h1, h2⟩ := kraus_reshape (h a (by simp))
    obtain ⟨r, h3, h4, h5⟩ := krausLoop_ok (fun a ha => h a (List.mem_cons_of_mem _ ha))
      ⟨t.shape, fun idx => t.get idx + b.get (idx.take (lin + lout)) * star (b.get (idx.drop (lin + lout)))⟩
    refine ⟨r, ?_, h4, fun x y hx hy => ?_⟩
    · rw [List.map_cons, krausLoop, if_neg, h1]
      · exact h3
      · rintro ⟨n1, n2⟩
        exact (h a (by simp)).elim n1 n2
    · rw [h5 x y hx hy, List.map_cons, List.sum_cons, ← add_assoc]
      refine congrArg (· + _) ?_
      show t.get (x ++ y) + b.get ((x ++ y).take (lin + lout)) * star (b.get ((x ++ y).drop (lin + lout))) = _
      rw [List.take_left' hx.1, List.drop_left' hx.1, h2 x hx, h2 y hy]

theorem head_plain {w : List Letter} (h : PlainWord w) : w.head? = some .i ↔ IsIn w := by
  cases w with
  | nil => simp [IsIn]
  | cons a w =>
    rcases h a (by simp) with rfl | rfl <;> simp [IsIn, Letter.ports]

theorem last_plain {w : List Letter} (h : PlainWord w) : w.getLast? = some .o ↔ IsOut w := by
  rcases List.eq_nil_or_concat w with rfl | ⟨w', a, rfl⟩
  · simp [IsOut]
  · rcases h a (by simp) with rfl | rfl <;> simp [IsOut, Letter.ports]

/-- **C50.**  `operation_from_kraus` with real Kraus operators of the accepted shapes: the entries are the sums of
`K ⊗ K*`. -/
theorem c50_kraus_partial {s : List (List Letter)} (hs : ∀ w ∈ s, PlainWord w ∧ w ≠ []) {Ks : List (Arr R)}
    (hK : ∀ a ∈ Ks, KrausShape (inPlaces s).length (outPlaces s).length a) : ∃ b, fromKraus s (Ks.map (.array false)) = .ok (.imm (.ten (some b)) s) ∧
      (∀ k m : Nat, DensBuilt ctr k (m + 1) (.imm (.ten (some b)) s)) ∧
      ∀ x y, Bits x ((inPlaces s).length + (outPlaces s).length) → Bits y ((inPlaces s).length + (outPlaces s).length) →
        b.get (x ++ y) = (Ks.map fun a => krausEntry (outPlaces s).length a x * star (krausEntry (outPlaces s).length a y)).sum := by
  have hw := fun w hw => (hs w hw).1
  have e1 : (s.filter fun w => w.head? = some .i).length = (inPlaces s).length := by
    unfold inPlaces
    rw [places_length, List.filter_congr fun w hm => decide_eq_decide.2 (head_plain (hw w hm))]
  have e2 : (s.filter fun w => w.getLast? = some .o).length = (outPlaces s).length := by
    unfold outPlaces
    rw [places_length, List.filter_congr fun w hm => decide_eq_decide.2 (last_plain (hw w hm))]
  obtain ⟨r, h1, h2, h3⟩ := krausLoop_ok hK ⟨List.replicate (2 * ((inPlaces s).length + (outPlaces s).length)) 2, fun _ => 0⟩
  obtain ⟨b, h4, h5, h6⟩ := (c50_immutable (a := r) hw).1 (by rw [h2, List.prod_replicate])
  refine ⟨b, ?_, fun k m => ?_, fun x y hx hy => ?_⟩
  · unfold fromKraus
    rw [if_neg fun hc => (hs _ hc).2 rfl]
    dsimp only
    rw [e1, e2, h1]
    exact h4
  · rw [DensBuilt, Nat.add_comm (outPlaces s).length]; exact ten_shape b h5
  · have hb : Bits (x ++ y) (2 * ((inPlaces s).length + (outPlaces s).length)) := by rw [two_mul]; exact hx.append hy
    rw [h6 _ hb, unoffset_self h2 hb, h3 x y hx hy]
    exact zero_add _

/-- **C50.**  Such an operation maps a density matrix to the sum of `K ρ K†`. -/
theorem c50_apply_partial {s : List (List Letter)} (hs : ∀ w ∈ s, PlainWord w ∧ w ≠ []) {Ks : List (Arr R)}
    (hK : ∀ a ∈ Ks, KrausShape (inPlaces s).length (outPlaces s).length a) {qs : List Int} (hq : qs.Nodup) (hl : s.length = qs.length) :
    ∃ op, fromKraus s (Ks.map (.array false)) = .ok op ∧ ∀ (n : Nat) (ρ : (Int → Nat) → (Int → Nat) → R) (w w' : Int → Nat), Good w → Good w' →
      (actAt ctr (n + 1) op qs).applyDens ρ w w' =
        krausMap (Ks.map (krausEntry (outPlaces s).length)) (inQubits s qs) (outQubits s qs) ρ w w' := by
  obtain ⟨b, h1, -, h3⟩ := c50_kraus_partial (ctr := ctr) hs hK
  refine ⟨_, h1, fun n ρ w w' hw hw' => ?_⟩
  show Act.applyDens ⟨densMatrix ctr (n + 1) (.imm (.ten (some b)) s), inQubits s qs, outQubits s qs⟩ ρ w w' = _
  rw [dens_ten]
  unfold Act.applyDens krausMap
  rw [List.map_map]
  have e : ∀ x x' : Int → Nat, Good x → Good x' → b.get ((outQubits s qs).map w ++ (inQubits s qs).map x ++ (outQubits s qs).map w' ++ (inQubits s qs).map x') * ρ x x' =
      (Ks.map fun a => krausEntry (outPlaces s).length a ((outQubits s qs).map w ++ (inQubits s qs).map x) * ρ x x' *
        star (krausEntry (outPlaces s).length a ((outQubits s qs).map w' ++ (inQubits s qs).map x'))).sum := fun x x' hx hx' => by
    have b1 := bits_map (l := outQubits s qs) (l' := inQubits s qs) hw hx
    have b2 := bits_map (l := outQubits s qs) (l' := inQubits s qs) hw' hx'
    rw [outQubits_length hl hq, inQubits_length hl hq, Nat.add_comm] at b1 b2
    rw [List.append_assoc _ ((outQubits s qs).map w'), h3 _ _ b1 b2, ← List.sum_map_mul_right]
    exact congrArg List.sum (List.map_congr_left fun a _ => mul_right_comm _ _ _)
  have : sumOver bits (inQubits s qs) (fun x => sumOver bits (inQubits s qs) (fun x' =>
        b.get ((outQubits s qs).map w ++ (inQubits s qs).map x ++ (outQubits s qs).map w' ++ (inQubits s qs).map x') * ρ x x') w') w =
      sumOver bits (inQubits s qs) (fun x => sumOver bits (inQubits s qs) (fun x' =>
        (Ks.map fun a => krausEntry (outPlaces s).length a ((outQubits s qs).map w ++ (inQubits s qs).map x) * ρ x x' *
          star (krausEntry (outPlaces s).length a ((outQubits s qs).map w' ++ (inQubits s qs).map x'))).sum) w') w :=
    sumOver_congr_reach fun x hx => sumOver_congr_reach fun x' hx' => e x x' (hw.reach hx) (hw'.reach hx')
  refine this.trans ?_
  simp only [sumOver_list_sum]
  rfl

/-- **C50.**  The first entry of the list that is no array raises `TypeError`, the first of another shape `ValueError`. -/
theorem c50_kraus_errors {lin lout : Nat} {Ks : List (Arr R)} (hK : ∀ a ∈ Ks, KrausShape lin lout a) (t : Arr R) (l : List (KrausArg R)) :
    krausLoop lin lout (Ks.map (.array false) ++ .other :: l) t = .error .type ∧
    ∀ cx a, ¬ KrausShape lin lout a → krausLoop lin lout (Ks.map (.array false) ++ .array cx a :: l) t = .error .value := by
  induction Ks generalizing t with
  | nil =>
    refine ⟨rfl, fun cx a ha => ?_⟩
    unfold KrausShape at ha
    rw [List.map_nil, List.nil_append, krausLoop, if_pos (not_or.1 ha)]
  | cons a Ks ih =>
    obtain ⟨b, h1, -⟩ := kraus_reshape (hK a (by simp))
    have hn : ¬ (a.shape ≠ List.replicate (lin + lout) 2 ∧ a.shape ≠ [2 ^ lout, 2 ^ lin]) := by
      rintro ⟨n1, n2⟩
      exact (hK a (by simp)).elim n1 n2
    obtain ⟨i1, i2⟩ := ih (fun a ha => hK a (by simp [ha]))
      ⟨t.shape, fun idx => t.get idx + b.get (idx.take (lin + lout)) * star (b.get (idx.drop (lin + lout)))⟩
    refine ⟨?_, fun cx a' ha' => ?_⟩
    · rw [List.map_cons, List.cons_append, krausLoop, if_neg hn, h1]; exact i1
    · rw [List.map_cons, List.cons_append, krausLoop, if_neg hn, h1]; exact i2 cx a' ha'

/-- C50 fails for complex Kraus operators: a list in which one of the operators, all of accepted shapes, is complex raises
`TypeError`. -/
theorem c50_complex_violated {s : List (List Letter)} (hs : ∀ w ∈ s, PlainWord w ∧ w ≠ []) {Ks : List (Arr R)} {a : Arr R} (l : List (KrausArg R))
    (hK : ∀ a ∈ Ks, KrausShape (inPlaces s).length (outPlaces s).length a) (ha : KrausShape (inPlaces s).length (outPlaces s).length a) :
    fromKraus s (Ks.map (.array false) ++ .array true a :: l) = .error .type := by
  have hw := fun w hw => (hs w hw).1
  have e1 : (s.filter fun w => w.head? = some .i).length = (inPlaces s).length := by
    unfold inPlaces
    rw [places_length, List.filter_congr fun w hm => decide_eq_decide.2 (head_plain (hw w hm))]
  have e2 : (s.filter fun w => w.getLast? = some .o).length = (outPlaces s).length := by
    unfold outPlaces
    rw [places_length, List.filter_congr fun w hm => decide_eq_decide.2 (last_plain (hw w hm))]
  have key : ∀ (Ks : List (Arr R)), (∀ a ∈ Ks, KrausShape (inPlaces s).length (outPlaces s).length a) → ∀ t : Arr R,
      krausLoop (inPlaces s).length (outPlaces s).length (Ks.map (.array false) ++ .array true a :: l) t = .error .type := by
    intro Ks
    induction Ks with
    | nil =>
      intro _ t
      obtain ⟨b, h1, -⟩ := kraus_reshape ha
      rw [List.map_nil, List.nil_append, krausLoop, if_neg, h1]
      · rfl
      · rintro ⟨n1, n2⟩
        exact ha.elim n1 n2
    | cons a' Ks ih =>
      intro hK t
      obtain ⟨b, h1, -⟩ := kraus_reshape (hK a' (by simp))
      rw [List.map_cons, List.cons_append, krausLoop, if_neg, h1]
      · exact ih (fun a ha => hK a (by simp [ha])) _
      · rintro ⟨n1, n2⟩
        exact (hK a' (by simp)).elim n1 n2
  unfold fromKraus
  rw [if_neg fun hc => (hs _ hc).2 rfl]
  dsimp only
  rw [e1, e2, key Ks hK]

/-- The Kraus operators `⟨j|` of the second of two qubits, as 2 by 4 matrices. -/
def exRow (j : Nat) : Arr ℚ := ⟨[2, 4], fun idx => if idx[1]? = some (2 * idx[0]?.getD 0 + j) then 1 else 0⟩

/-- Two operators on two qubits that remove the second one: `c50_kraus_partial` and `c50_apply_partial`. -/
example : (∃ b, fromKraus [[.i, .o], [.i]] ([exRow 0, exRow 1].map (.array false)) = .ok (.imm (.ten (some b)) [[.i, .o], [.i]]) ∧
      b.get [1, 1, 0, 1, 1, 0] = 1 ∧ b.get [1, 1, 0, 1, 1, 1] = 0) ∧
    ∃ op, fromKraus [[.i, .o], [.i]] ([exRow 0, exRow 1].map (.array false)) = .ok op ∧
      ∀ (n : Nat) (ρ : (Int → Nat) → (Int → Nat) → ℚ) (w w' : Int → Nat), Good w → Good w' →
      (actAt evalAll (n + 1) op [7, 3]).applyDens ρ w w' = krausMap ([exRow 0, exRow 1].map (krausEntry 1)) [7, 3] [7] ρ w w' := by
  have hs : ∀ w ∈ [[Letter.i, .o], [.i]], PlainWord w ∧ w ≠ [] := by decide
  have hK : ∀ a ∈ [exRow 0, exRow 1], KrausShape (inPlaces [[Letter.i, .o], [.i]]).length (outPlaces [[Letter.i, .o], [.i]]).length a := fun a ha => by
    rcases List.mem_cons.1 ha with rfl | ha
    · exact Or.inr rfl
    · rw [List.mem_singleton.1 ha]; exact Or.inr rfl
  constructor
  · obtain ⟨b, h1, -, h3⟩ := c50_kraus_partial (ctr := evalAll) hs hK
    refine ⟨b, h1, ?_, ?_⟩
    · refine (h3 [1, 1, 0] [1, 1, 0] (by unfold Bits; decide) (by unfold Bits; decide)).trans ?_
      decide +kernel
    · refine (h3 [1, 1, 0] [1, 1, 1] (by unfold Bits; decide) (by unfold Bits; decide)).trans ?_
      decide +kernel
  · have e1 : inQubits [[Letter.i, .o], [.i]] [7, 3] = [7, 3] := by decide
    have e2 : outQubits [[Letter.i, .o], [.i]] [7, 3] = [7] := by decide
    have e3 : (outPlaces [[Letter.i, .o], [.i]]).length = 1 := by decide
    have := c50_apply_partial (ctr := evalAll) hs hK (qs := [7, 3]) (by decide) rfl
    rwa [e1, e2, e3] at this

/-- A 4 by 4 matrix: `c50_unitary`. -/
example : ∃ p, unitary 2 (⟨[4, 4], fun idx => if idx = [1, 2] ∨ idx = [2, 1] ∨ idx = [0, 0] ∨ idx = [3, 3] then 1 else 0⟩ : Arr ℚ) = .ok (.pure p none) ∧
    matrix evalAll 1 (.pure p none) [0, 1, 1, 0] = 1 := by
  obtain ⟨p, h1, -, -, h2⟩ := c50_unitary (ctr := evalAll) (n := 2)
    (a := (⟨[4, 4], fun idx => if idx = [1, 2] ∨ idx = [2, 1] ∨ idx = [0, 0] ∨ idx = [3, 3] then 1 else 0⟩ : Arr ℚ)) rfl
  exact ⟨p, h1, (h2 0 [0, 1] [1, 0] (by unfold Bits; decide) (by unfold Bits; decide)).trans (by decide)⟩

end Oper

end Verif
