import Verif.Model.NoisyRound
import Verif.Props.StabilizerCirc
import Verif.Props.Timeline
import Verif.Props.Wires
/-!
# C70: the rounds of the noisy surface code

Which gates `add_noisy_surface_code` appends, that the rounds follow each other, that on each qubit the operations happen in the order of the
noiseless round, and that the windows of the idle noise (C69) are in order for any number of rounds.
-/

namespace Verif

namespace Qec

variable {K : Type} [Field K] [LinearOrder K] [IsStrictOrderedRing K]

/-! ## Spec -/

/-- The durations are positive and the measurement of the Z ancillas ends before the next round. -/
structure RoundParams.Sane (p : RoundParams K) : Prop where
  T1 : 0 < p.T1
  T2 : 0 < p.T2
  tm : 0 < p.tm
  td : 0 ≤ p.td
  shift : 0 ≤ p.TC.getD (-p.T1) + p.T1
  fits : p.TC.getD (-p.T1) + 2 * p.T1 + 4 * p.T2 ≤ p.tm / 2 + p.td

/-- Two operations other than cross talk on a common qubit: the first is earlier. -/
def Before (a b : NoisyOp K) : Prop :=
  a.kind ≠ .cross → b.kind ≠ .cross → (∃ q ∈ a.qubits, q ∈ b.qubits) → a.time < b.time

/-- The noiseless round, as in `x_stab_meas` and `z_stab_meas` (C67), with measurements without outcome. -/
def idealRound (coords : List (Int × Int)) : List (NoisyKind × List (Int × Int)) :=
  let half (hs anc : List (Int × Int)) (dance : List ((Grp × Grp) × (Grp × Grp))) : List (NoisyKind × List (Int × Int)) :=
    hs.map (fun q => (.hadamard, [q])) ++ (dance.flatMap (slotPairs coords)).map (fun e => (.cz, [e.1, e.2])) ++
      hs.map (fun q => (.hadamard, [q])) ++ anc.map fun q => (.nd, [q])
  half (inGroups coords [.D1, .D2, .D3, .D4, .X1, .X2]) (inGroups coords [.X1, .X2]) xDance ++
    half (inGroups coords [.Z1, .Z2]) (inGroups coords [.Z1, .Z2]) zDance

/-! ## Groups -/

theorem mem_inGroups {coords : List (Int × Int)} {l : List Grp} {q : Int × Int} : q ∈ inGroups coords l ↔ ∃ g ∈ l, q ∈ group coords g := by
  unfold inGroups; rw [List.mem_flatMap]

theorem inGroups_disjoint {coords : List (Int × Int)} {l l' : List Grp} (h : ∀ g ∈ l, g ∉ l') {q : Int × Int} (h1 : q ∈ inGroups coords l) :
    q ∉ inGroups coords l' := by
  intro h2
  obtain ⟨g, hg, hq⟩ := mem_inGroups.1 h1
  obtain ⟨g', hg', hq'⟩ := mem_inGroups.1 h2
  by_cases e : g = g'
  · subst e; exact h g hg hg'
  · exact group_disjoint e hq hq'

theorem group_dummy (coords : List (Int × Int)) : group coords .dummy = [] := by
  rw [List.eq_nil_iff_forall_not_mem]
  intro q hq
  have := (mem_group.1 hq).2
  simp only [site, reduceCtorEq] at this

theorem rotPairs_eq {coords : List (Int × Int)} (hc : coords.Nodup) {s : (Grp × Grp) × (Grp × Grp)} (hs : s ∈ xDance ++ zDance) (g : Grp) :
    rotPairs coords (s, g) = slotPairs coords s := by
  have hok := slots_ok s hs
  simp only [slotOk, Bool.and_eq_true] at hok
  unfold rotPairs slotPairs
  rw [c67_break hc hok.1.1, c67_break hc hok.1.2, group_dummy]
  have : ∀ l, czRotations l [] = [] := fun l => by simp [czRotations]
  rw [this, List.append_nil]

theorem rot_groups {coords : List (Int × Int)} {s : ((Grp × Grp) × (Grp × Grp)) × Grp} {e : (Int × Int) × (Int × Int)} (he : e ∈ rotPairs coords s)
    {l : List Grp} (hl : s.1.1.1 ∈ l ∧ s.1.1.2 ∈ l ∧ s.1.2.1 ∈ l ∧ s.1.2.2 ∈ l) : e.1 ∈ inGroups coords l ∧ e.2 ∈ inGroups coords l := by
  unfold rotPairs at he
  rw [group_dummy, List.mem_append, List.mem_append, mem_czRotations, mem_czRotations, mem_czRotations] at he
  rcases he with (he | he) | he
  · exact ⟨mem_inGroups.2 ⟨_, hl.1, he.1⟩, mem_inGroups.2 ⟨_, hl.2.1, he.2.1⟩⟩
  · exact ⟨mem_inGroups.2 ⟨_, hl.2.2.1, he.1⟩, mem_inGroups.2 ⟨_, hl.2.2.2, he.2.1⟩⟩
  · simp at he

/-! ## One loop over the flux dances -/

omit [LinearOrder K] [IsStrictOrderedRing K] in
theorem slotOps_snd (coords : List (Int × Int)) (T2 : K) [NeZero (2 : K)] : ∀ (l : List (((Grp × Grp) × (Grp × Grp)) × Grp)) (t : K),
    (slotOps coords T2 l t).2 = t + l.length * T2
  | [], t => by simp [slotOps]
  | s :: l, t => by
    show (slotOps coords T2 l (t + T2 / 2 + T2 / 2)).2 = _
    rw [slotOps_snd coords T2 l, List.length_cons, add_assoc t, add_halves]
    push_cast
    ring

theorem slotOps_mem {coords : List (Int × Int)} {T2 : K} (h2 : 0 < T2) : ∀ {l : List (((Grp × Grp) × (Grp × Grp)) × Grp)} {t : K} {o : NoisyOp K},
    o ∈ (slotOps coords T2 l t).1 → o.kind = .cz ∧ (∃ s ∈ l, ∃ e ∈ rotPairs coords s, o.qubits = [e.1, e.2]) ∧ t < o.time ∧ o.time < t + l.length * T2
  | [], t, o, h => by simp [slotOps] at h
  | s :: l, t, o, h => by
    have h : o ∈ (rotPairs coords s).map (fun e => (⟨.cz, [e.1, e.2], t + T2 / 2⟩ : NoisyOp K)) ++ (slotOps coords T2 l (t + T2 / 2 + T2 / 2)).1 := h
    have hl : (0 : K) ≤ l.length * T2 := mul_nonneg (Nat.cast_nonneg _) h2.le
    rw [List.length_cons]
    push_cast
    rcases List.mem_append.1 h with h | h
    · obtain ⟨e, he, rfl⟩ := List.mem_map.1 h
      refine ⟨rfl, ⟨s, List.mem_cons_self, e, he, rfl⟩, ?_, ?_⟩
      · show t < t + T2 / 2
        linarith
      · show t + T2 / 2 < _
        linarith
    · obtain ⟨i1, ⟨s', hs', i2⟩, i3, i4⟩ := slotOps_mem h2 h
      refine ⟨i1, ⟨s', List.mem_cons_of_mem _ hs', i2⟩, by linarith, by linarith⟩

theorem slotOps_before {coords : List (Int × Int)} {T2 : K} (h2 : 0 < T2) : ∀ {l : List (((Grp × Grp) × (Grp × Grp)) × Grp)} {t : K},
    (∀ s ∈ l, ((rotPairs coords s).flatMap fun e => [e.1, e.2]).Nodup) → (slotOps coords T2 l t).1.Pairwise Before
  | [], t, _ => by simp [slotOps]
  | s :: l, t, hn => by
    show ((rotPairs coords s).map (fun e => (⟨.cz, [e.1, e.2], t + T2 / 2⟩ : NoisyOp K)) ++ (slotOps coords T2 l (t + T2 / 2 + T2 / 2)).1).Pairwise _
    rw [List.pairwise_append]
    refine ⟨?_, slotOps_before h2 fun s hs => hn s (List.mem_cons_of_mem _ hs), ?_⟩
    · have := (List.nodup_flatMap.1 (hn s List.mem_cons_self)).2
      rw [List.pairwise_map]
      refine this.imp ?_
      rintro a b hd - - ⟨q, hq, hq'⟩
      exact absurd hq' (hd hq)
    · intro a ha b hb _ _ _
      obtain ⟨e, _, rfl⟩ := List.mem_map.1 ha
      have := (slotOps_mem h2 hb).2.2.1
      show t + T2 / 2 < _
      linarith

omit [LinearOrder K] [IsStrictOrderedRing K] in
theorem slotOps_list (coords : List (Int × Int)) (T2 : K) : ∀ (l : List (((Grp × Grp) × (Grp × Grp)) × Grp)) (t : K),
    ((slotOps coords T2 l t).1.map fun o => (o.kind, o.qubits)) = (l.flatMap (rotPairs coords)).map fun e => (.cz, [e.1, e.2])
  | [], t => rfl
  | s :: l, t => by
    show (((rotPairs coords s).map (fun e => (⟨.cz, [e.1, e.2], t + T2 / 2⟩ : NoisyOp K)) ++ (slotOps coords T2 l (t + T2 / 2 + T2 / 2)).1).map fun o => (o.kind, o.qubits)) = _
    rw [List.map_append, slotOps_list coords T2 l, List.map_map, List.flatMap_cons, List.map_append]
    rfl

/-! ## One round -/

/-- The round with the times written out. -/
theorem noisyRound_eq (coords : List (Int × Int)) (p : RoundParams K) (t : K) : noisyRound coords p t =
    (layerOps .hadamard (inGroups coords [.D1, .D2, .D3, .D4, .X1, .X2]) (t + p.T1 / 2) ++
      (slotOps coords p.T2 (xDance.zip xLast) (t + p.T1)).1 ++
      crossOps coords (zDance.zip zLast) (t + p.T1 + 4 * p.T2) ++
      layerOps .hadamard (inGroups coords [.D1, .D2, .D3, .D4, .X1, .X2]) (t + p.T1 + 4 * p.T2 + p.T1 / 2) ++
      layerOps .nd (inGroups coords [.X1, .X2]) (t + 2 * p.T1 + 4 * p.T2 + p.tm / 2) ++
      layerOps .hadamard (inGroups coords [.Z1, .Z2]) (t + 2 * p.T1 + 4 * p.T2 + p.TC.getD (-p.T1) + p.T1 / 2) ++
      (slotOps coords p.T2 (zDance.zip zLast) (t + 3 * p.T1 + 4 * p.T2 + p.TC.getD (-p.T1))).1 ++
      crossOps coords (xDance.zip xLast) (t + 3 * p.T1 + 8 * p.T2 + p.TC.getD (-p.T1)) ++
      layerOps .hadamard (inGroups coords [.Z1, .Z2]) (t + 3 * p.T1 + 8 * p.T2 + p.TC.getD (-p.T1) + p.T1 / 2) ++
      layerOps .nd (inGroups coords [.Z1, .Z2]) (t + 4 * p.T1 + 8 * p.T2 + p.TC.getD (-p.T1) + p.tm / 2),
     t + 2 * p.T1 + 4 * p.T2 + p.tm + p.td) := by
  have e1 : t + p.T1 / 2 + p.T1 / 2 = t + p.T1 := by ring
  have hx : ((xDance.zip xLast).length : K) = 4 := by norm_num [xDance, xLast]
  have hz : ((zDance.zip zLast).length : K) = 4 := by norm_num [zDance, zLast]
  unfold noisyRound
  simp only [slotOps_snd, hx, hz, e1]
  have e2 : t + p.T1 + 4 * p.T2 + p.T1 / 2 + p.T1 / 2 = t + 2 * p.T1 + 4 * p.T2 := by ring
  simp only [e2]
  have e3 : t + 2 * p.T1 + 4 * p.T2 + p.TC.getD (-p.T1) + p.T1 / 2 + p.T1 / 2 = t + 3 * p.T1 + 4 * p.T2 + p.TC.getD (-p.T1) := by ring
  simp only [e3]
  have e4 : t + 3 * p.T1 + 4 * p.T2 + p.TC.getD (-p.T1) + 4 * p.T2 = t + 3 * p.T1 + 8 * p.T2 + p.TC.getD (-p.T1) := by ring
  simp only [e4]
  have e5 : t + 3 * p.T1 + 8 * p.T2 + p.TC.getD (-p.T1) + p.T1 / 2 + p.T1 / 2 = t + 4 * p.T1 + 8 * p.T2 + p.TC.getD (-p.T1) := by ring
  simp only [e5]

/-- What the operations of one round are. -/
theorem round_cases {coords : List (Int × Int)} {p : RoundParams K} (h2 : 0 < p.T2) {t : K} {o : NoisyOp K} (h : o ∈ (noisyRound coords p t).1) :
    (o.kind = .hadamard ∧ (∃ q ∈ inGroups coords [.D1, .D2, .D3, .D4, .X1, .X2], o.qubits = [q]) ∧
      (o.time = t + p.T1 / 2 ∨ o.time = t + p.T1 + 4 * p.T2 + p.T1 / 2)) ∨
    (o.kind = .cz ∧ (∃ s ∈ xDance.zip xLast, ∃ e ∈ rotPairs coords s, o.qubits = [e.1, e.2]) ∧ t + p.T1 < o.time ∧ o.time < t + p.T1 + 4 * p.T2) ∨
    (o.kind = .cross ∧ (∃ s ∈ zDance.zip zLast, ∃ e ∈ rotPairs coords s, o.qubits = [e.1, e.2]) ∧ o.time = t + p.T1 + 4 * p.T2) ∨
    (o.kind = .nd ∧ (∃ q ∈ inGroups coords [.X1, .X2], o.qubits = [q]) ∧ o.time = t + 2 * p.T1 + 4 * p.T2 + p.tm / 2) ∨
    (o.kind = .hadamard ∧ (∃ q ∈ inGroups coords [.Z1, .Z2], o.qubits = [q]) ∧
      (o.time = t + 2 * p.T1 + 4 * p.T2 + p.TC.getD (-p.T1) + p.T1 / 2 ∨ o.time = t + 3 * p.T1 + 8 * p.T2 + p.TC.getD (-p.T1) + p.T1 / 2)) ∨
    (o.kind = .cz ∧ (∃ s ∈ zDance.zip zLast, ∃ e ∈ rotPairs coords s, o.qubits = [e.1, e.2]) ∧
      t + 3 * p.T1 + 4 * p.T2 + p.TC.getD (-p.T1) < o.time ∧ o.time < t + 3 * p.T1 + 8 * p.T2 + p.TC.getD (-p.T1)) ∨
    (o.kind = .cross ∧ (∃ s ∈ xDance.zip xLast, ∃ e ∈ rotPairs coords s, o.qubits = [e.1, e.2]) ∧ o.time = t + 3 * p.T1 + 8 * p.T2 + p.TC.getD (-p.T1)) ∨
    (o.kind = .nd ∧ (∃ q ∈ inGroups coords [.Z1, .Z2], o.qubits = [q]) ∧ o.time = t + 4 * p.T1 + 8 * p.T2 + p.TC.getD (-p.T1) + p.tm / 2) := by
  have hl : ∀ {k : NoisyKind} {qs : List (Int × Int)} {u : K}, o ∈ layerOps k qs u → o.kind = k ∧ (∃ q ∈ qs, o.qubits = [q]) ∧ o.time = u := by
    intro k qs u h
    obtain ⟨q, hq, rfl⟩ := List.mem_map.1 h
    exact ⟨rfl, ⟨q, hq, rfl⟩, rfl⟩
  have hx : ∀ {l : List (((Grp × Grp) × (Grp × Grp)) × Grp)} {u : K}, o ∈ crossOps coords l u →
      o.kind = .cross ∧ (∃ s ∈ l, ∃ e ∈ rotPairs coords s, o.qubits = [e.1, e.2]) ∧ o.time = u := by
    intro l u h
    obtain ⟨s, hs, h⟩ := List.mem_flatMap.1 h
    obtain ⟨e, he, rfl⟩ := List.mem_map.1 h
    exact ⟨rfl, ⟨s, hs, e, he, rfl⟩, rfl⟩
  have h4 : ((xDance.zip xLast).length : K) = 4 := by norm_num [xDance, xLast]
  have h4' : ((zDance.zip zLast).length : K) = 4 := by norm_num [zDance, zLast]
  rw [noisyRound_eq] at h
  simp only [List.mem_append] at h
  rcases h with ((((((((h | h) | h) | h) | h) | h) | h) | h) | h) | h
  · have := hl h; exact .inl ⟨this.1, this.2.1, .inl this.2.2⟩
  · have := slotOps_mem h2 h
    rw [h4] at this
    exact .inr (.inl this)
  · exact .inr (.inr (.inl (hx h)))
  · have := hl h; exact .inl ⟨this.1, this.2.1, .inr this.2.2⟩
  · exact .inr (.inr (.inr (.inl (hl h))))
  · have := hl h; exact .inr (.inr (.inr (.inr (.inl ⟨this.1, this.2.1, .inl this.2.2⟩))))
  · have := slotOps_mem h2 h
    rw [h4'] at this
    refine .inr (.inr (.inr (.inr (.inr (.inl ⟨this.1, this.2.1, this.2.2.1, ?_⟩)))))
    have := this.2.2.2
    linarith
  · exact .inr (.inr (.inr (.inr (.inr (.inr (.inl (hx h)))))))
  · have := hl h; exact .inr (.inr (.inr (.inr (.inl ⟨this.1, this.2.1, .inr this.2.2⟩))))
  · exact .inr (.inr (.inr (.inr (.inr (.inr (.inr (hl h)))))))

/-- C70: all operations of a round happen after its beginning and not after the returned end. -/
theorem c70_within {coords : List (Int × Int)} {p : RoundParams K} (hp : p.Sane) {t : K} :
    ∀ o ∈ (noisyRound coords p t).1, t < o.time ∧ o.time ≤ (noisyRound coords p t).2 := by
  intro o ho
  have e : (noisyRound coords p t).2 = t + 2 * p.T1 + 4 * p.T2 + p.tm + p.td := by rw [noisyRound_eq]
  rw [e]
  obtain ⟨h1, h2, h3, h4, h5, h6⟩ := hp
  rcases round_cases h2 ho with h | h | h | h | h | h | h | h
  · rcases h.2.2 with h | h <;> rw [h] <;> constructor <;> linarith
  · obtain ⟨_, _, i, j⟩ := h; constructor <;> linarith
  · rw [h.2.2]; constructor <;> linarith
  · rw [h.2.2]; constructor <;> linarith
  · rcases h.2.2 with h | h <;> rw [h] <;> constructor <;> linarith
  · obtain ⟨_, _, i, j⟩ := h; constructor <;> linarith
  · rw [h.2.2]; constructor <;> linarith
  · rw [h.2.2]; constructor <;> linarith

omit [Field K] [LinearOrder K] [IsStrictOrderedRing K] in
theorem filter_layer {k : NoisyKind} (hk : k ≠ .cross) (qs : List (Int × Int)) (t : K) :
    (layerOps k qs t).filter (fun o => o.kind ≠ .cross) = layerOps k qs t := by
  rw [List.filter_eq_self]
  intro o ho
  obtain ⟨q, _, rfl⟩ := List.mem_map.1 ho
  simpa using hk

omit [LinearOrder K] [IsStrictOrderedRing K] in
theorem filter_slots {coords : List (Int × Int)} {T2 : K} (l : List (((Grp × Grp) × (Grp × Grp)) × Grp)) (t : K) :
    (slotOps coords T2 l t).1.filter (fun o => o.kind ≠ .cross) = (slotOps coords T2 l t).1 := by
  induction l generalizing t with
  | nil => rfl
  | cons s l ih =>
    show ((rotPairs coords s).map (fun e => (⟨.cz, [e.1, e.2], t + T2 / 2⟩ : NoisyOp K)) ++ (slotOps coords T2 l (t + T2 / 2 + T2 / 2)).1).filter _ = _
    rw [List.filter_append, ih]
    show _ = (rotPairs coords s).map (fun e => (⟨.cz, [e.1, e.2], t + T2 / 2⟩ : NoisyOp K)) ++ (slotOps coords T2 l (t + T2 / 2 + T2 / 2)).1
    congr 1
    rw [List.filter_eq_self]
    intro o ho
    obtain ⟨q, _, rfl⟩ := List.mem_map.1 ho
    simp

omit [Field K] [LinearOrder K] [IsStrictOrderedRing K] in
theorem filter_cross {coords : List (Int × Int)} (l : List (((Grp × Grp) × (Grp × Grp)) × Grp)) (t : K) :
    (crossOps coords l t).filter (fun o => o.kind ≠ .cross) = [] := by
  rw [List.filter_eq_nil_iff]
  intro o ho
  obtain ⟨s, _, ho⟩ := List.mem_flatMap.1 ho
  obtain ⟨e, _, rfl⟩ := List.mem_map.1 ho
  simp

theorem flatMap_zip {coords : List (Int × Int)} (hc : coords.Nodup) {l : List ((Grp × Grp) × (Grp × Grp))} {gs : List Grp} (hl : ∀ s ∈ l, s ∈ xDance ++ zDance)
    (hlen : l.length = gs.length) : (l.zip gs).flatMap (rotPairs coords) = l.flatMap (slotPairs coords) := by
  induction l generalizing gs with
  | nil => rfl
  | cons s l ih =>
    cases gs with
    | nil => simp at hlen
    | cons g gs =>
      rw [List.zip_cons_cons, List.flatMap_cons, List.flatMap_cons, ih (fun s hs => hl s (List.mem_cons_of_mem _ hs)) (by simpa using hlen),
        rotPairs_eq hc (hl s List.mem_cons_self)]

/-- **C70**: apart from the cross talk a round consists of the gates of the noiseless round, in the same order. -/
theorem c70_ideal {coords : List (Int × Int)} (hc : coords.Nodup) (p : RoundParams K) (t : K) :
    (((noisyRound coords p t).1.filter fun o => o.kind ≠ .cross).map fun o => (o.kind, o.qubits)) = idealRound coords := by
  have hl : ∀ (k : NoisyKind) (qs : List (Int × Int)) (u : K), ((layerOps k qs u).map fun o => (o.kind, o.qubits)) = qs.map fun q => (k, [q]) := by
    intro k qs u; unfold layerOps; rw [List.map_map]; rfl
  rw [noisyRound_eq]
  simp only [List.filter_append, filter_layer (k := .hadamard) (by decide), filter_layer (k := .nd) (by decide), filter_slots, filter_cross, List.map_append,
    List.append_nil, hl, slotOps_list]
  rw [flatMap_zip hc (fun s hs => List.mem_append_left _ hs) (by rfl), flatMap_zip hc (fun s hs => List.mem_append_right _ hs) (by rfl)]
  simp only [idealRound, List.append_assoc]

omit [Field K] [LinearOrder K] [IsStrictOrderedRing K] in
theorem cross_list {coords : List (Int × Int)} (l : List (((Grp × Grp) × (Grp × Grp)) × Grp)) (t : K) :
    ((crossOps coords l t).map fun o => o.qubits) = (l.flatMap (rotPairs coords)).map fun e => [e.1, e.2] := by
  unfold crossOps
  rw [List.map_flatMap, List.map_flatMap]
  congr 1
  funext s
  rw [List.map_map]
  rfl

/-- **C70**: the cross talk between the halves of a round is on every pair of a Z ancilla and a neighbouring data qubit, once; behind the second half on every
pair of an X ancilla and a neighbouring data qubit. -/
theorem c70_cross {coords : List (Int × Int)} (hc : coords.Nodup) (p : RoundParams K) (t : K) : ∃ zs xs : List ((Int × Int) × (Int × Int)),
    (((noisyRound coords p t).1.filter fun o => o.kind = .cross).map fun o => o.qubits) = (zs ++ xs).map (fun e => [e.1, e.2]) ∧
    (zs.map orient).Perm ((inGroups coords [.Z1, .Z2]).flatMap fun a => (coords.filter (adjacent a)).map fun d => (a, d)) ∧
    (xs.map orient).Perm ((inGroups coords [.X1, .X2]).flatMap fun a => (coords.filter (adjacent a)).map fun d => (a, d)) := by
  refine ⟨zDance.flatMap (slotPairs coords), xDance.flatMap (slotPairs coords), ?_, c67_z_pairs hc, c67_x_pairs hc⟩
  have hl : ∀ (k : NoisyKind) (qs : List (Int × Int)) (u : K), k ≠ .cross → (layerOps k qs u).filter (fun o => o.kind = .cross) = [] := by
    intro k qs u hk
    rw [List.filter_eq_nil_iff]
    intro o ho
    obtain ⟨q, _, rfl⟩ := List.mem_map.1 ho
    simpa using hk
  have hs : ∀ (l : List (((Grp × Grp) × (Grp × Grp)) × Grp)) (u : K), (slotOps coords p.T2 l u).1.filter (fun o => o.kind = .cross) = [] := by
    intro l u
    rw [List.filter_eq_nil_iff, ← filter_slots]
    intro o ho
    simpa using (List.mem_filter.1 ho).2
  have hx : ∀ (l : List (((Grp × Grp) × (Grp × Grp)) × Grp)) (u : K), (crossOps coords l u).filter (fun o => o.kind = .cross) = crossOps coords l u := by
    intro l u
    rw [List.filter_eq_self]
    intro o ho
    obtain ⟨s, _, ho⟩ := List.mem_flatMap.1 ho
    obtain ⟨e, _, rfl⟩ := List.mem_map.1 ho
    simp
  rw [noisyRound_eq]
  simp only [List.filter_append, hl .hadamard _ _ (by decide), hl .nd _ _ (by decide), hs, hx, List.map_append, List.append_nil, List.nil_append, cross_list]
  rw [flatMap_zip hc (fun s hs => List.mem_append_left _ hs) (by rfl), flatMap_zip hc (fun s hs => List.mem_append_right _ hs) (by rfl)]

theorem dance_groups_x {coords : List (Int × Int)} {s : ((Grp × Grp) × (Grp × Grp)) × Grp} (hs : s ∈ xDance.zip xLast) {e : (Int × Int) × (Int × Int)}
    (he : e ∈ rotPairs coords s) : ∀ q ∈ [e.1, e.2], q ∈ inGroups coords [.D1, .D2, .D3, .D4, .X1, .X2] := by
  have : ∀ s ∈ xDance.zip xLast, s.1.1.1 ∈ [Grp.D1, .D2, .D3, .D4, .X1, .X2] ∧ s.1.1.2 ∈ [Grp.D1, .D2, .D3, .D4, .X1, .X2] ∧
      s.1.2.1 ∈ [Grp.D1, .D2, .D3, .D4, .X1, .X2] ∧ s.1.2.2 ∈ [Grp.D1, .D2, .D3, .D4, .X1, .X2] := by decide
  have h := rot_groups he (this s hs)
  simpa using h

theorem dance_groups_z {coords : List (Int × Int)} {s : ((Grp × Grp) × (Grp × Grp)) × Grp} (hs : s ∈ zDance.zip zLast) {e : (Int × Int) × (Int × Int)}
    (he : e ∈ rotPairs coords s) : ∀ q ∈ [e.1, e.2], q ∈ inGroups coords [.D1, .D2, .D3, .D4, .Z1, .Z2] := by
  have : ∀ s ∈ zDance.zip zLast, s.1.1.1 ∈ [Grp.D1, .D2, .D3, .D4, .Z1, .Z2] ∧ s.1.1.2 ∈ [Grp.D1, .D2, .D3, .D4, .Z1, .Z2] ∧
      s.1.2.1 ∈ [Grp.D1, .D2, .D3, .D4, .Z1, .Z2] ∧ s.1.2.2 ∈ [Grp.D1, .D2, .D3, .D4, .Z1, .Z2] := by decide
  have h := rot_groups he (this s hs)
  simpa using h

/-! ## The order on each qubit -/

theorem inGroups_nodup {coords : List (Int × Int)} (hc : coords.Nodup) {l : List Grp} (hl : l.Nodup) : (inGroups coords l).Nodup := by
  unfold inGroups
  rw [List.nodup_flatMap]
  exact ⟨fun g _ => group_nodup hc g, hl.imp fun {a b} hab q hq hq' => group_disjoint hab hq hq'⟩

omit [Field K] [IsStrictOrderedRing K] in
theorem layer_before {k : NoisyKind} {qs : List (Int × Int)} (hq : qs.Nodup) (t : K) : (layerOps k qs t).Pairwise Before := by
  unfold layerOps
  rw [List.pairwise_map]
  refine hq.imp ?_
  rintro a b hab - - ⟨q, h1, h2⟩
  rw [List.mem_singleton] at h1 h2
  exact absurd (h1.symm.trans h2) hab

omit [Field K] [IsStrictOrderedRing K] in
theorem cross_before {coords : List (Int × Int)} (l : List (((Grp × Grp) × (Grp × Grp)) × Grp)) (t : K) : (crossOps coords l t).Pairwise Before := by
  refine List.Pairwise.imp_of_mem (R := fun _ _ => True) ?_ (List.pairwise_of_forall fun _ _ => trivial)
  intro a b ha _ _ h
  obtain ⟨s, _, ha⟩ := List.mem_flatMap.1 ha
  obtain ⟨e, _, rfl⟩ := List.mem_map.1 ha
  exact absurd rfl h

/-- **C70**: in a round the operations on each qubit, cross talk aside, happen at increasing times in the order of the calls: so the round does to each qubit what
the noiseless round does. -/
theorem c70_order {coords : List (Int × Int)} (hc : coords.Nodup) {p : RoundParams K} (hp : p.Sane) (t : K) :
    (noisyRound coords p t).1.Pairwise Before := by
  have hdx : (inGroups coords [.D1, .D2, .D3, .D4, .X1, .X2]).Nodup := inGroups_nodup hc (by decide)
  have hx : (inGroups coords [.X1, .X2]).Nodup := inGroups_nodup hc (by decide)
  have hz : (inGroups coords [.Z1, .Z2]).Nodup := inGroups_nodup hc (by decide)
  have hpar : ∀ {l : List ((Grp × Grp) × (Grp × Grp))} {gs : List Grp}, (∀ s ∈ l, s ∈ xDance ++ zDance) → ∀ s ∈ l.zip gs,
      ((rotPairs coords s).flatMap fun e => [e.1, e.2]).Nodup := by
    intro l gs hl s hs
    have hs' := hl s.1 (List.of_mem_zip (a := s.1) (b := s.2) hs).1
    rw [show s = (s.1, s.2) from rfl, rotPairs_eq hc hs']
    exact c67_parallel hc hs'
  obtain ⟨h1, h2, h3, h4, h5, h6⟩ := hp
  have e4 : ((xDance.zip xLast).length : K) = 4 := by norm_num [xDance, xLast]
  have e4' : ((zDance.zip zLast).length : K) = 4 := by norm_num [zDance, zLast]
  have lay : ∀ {k : NoisyKind} {qs : List (Int × Int)} {u : K} {o : NoisyOp K}, o ∈ layerOps k qs u → (∃ q ∈ qs, o.qubits = [q]) ∧ o.time = u := by
    intro k qs u o h
    obtain ⟨q, hq, rfl⟩ := List.mem_map.1 h
    exact ⟨⟨q, hq, rfl⟩, rfl⟩
  have crs : ∀ {l : List (((Grp × Grp) × (Grp × Grp)) × Grp)} {u : K} {o : NoisyOp K}, o ∈ crossOps coords l u → o.kind = .cross := by
    intro l u o h
    obtain ⟨s, _, h⟩ := List.mem_flatMap.1 h
    obtain ⟨e, _, rfl⟩ := List.mem_map.1 h
    rfl
  have sx : ∀ {u : K} {o : NoisyOp K}, o ∈ (slotOps coords p.T2 (xDance.zip xLast) u).1 → u < o.time ∧ o.time < u + 4 * p.T2 := by
    intro u o h
    have := (slotOps_mem h2 h).2.2
    rwa [e4] at this
  have sz : ∀ {u : K} {o : NoisyOp K}, o ∈ (slotOps coords p.T2 (zDance.zip zLast) u).1 →
      (∀ q ∈ o.qubits, q ∈ inGroups coords [.D1, .D2, .D3, .D4, .Z1, .Z2]) ∧ u < o.time ∧ o.time < u + 4 * p.T2 := by
    intro u o h
    obtain ⟨_, ⟨s, hs, e, he, hq⟩, h⟩ := slotOps_mem h2 h
    rw [e4'] at h
    exact ⟨by rw [hq]; exact dance_groups_z hs he, h⟩
  -- different groups
  have far : ∀ {a b : NoisyOp K} {l l' : List Grp}, (∀ q ∈ a.qubits, q ∈ inGroups coords l) → (∀ q ∈ b.qubits, q ∈ inGroups coords l') → (∀ g ∈ l, g ∉ l') → Before a b := by
    rintro a b l l' ha hb hl - - ⟨q, h1, h2⟩
    exact absurd (hb q h2) (inGroups_disjoint hl (ha q h1))
  have one : ∀ {o : NoisyOp K} {qs : List (Int × Int)}, (∃ q ∈ qs, o.qubits = [q]) → ∀ q ∈ o.qubits, q ∈ qs := by
    rintro o qs ⟨q, hq, e⟩ q' hq'
    rw [e, List.mem_singleton] at hq'
    exact hq' ▸ hq
  rw [noisyRound_eq]
  refine List.pairwise_append.2 ⟨List.pairwise_append.2 ⟨List.pairwise_append.2 ⟨List.pairwise_append.2 ⟨List.pairwise_append.2 ⟨List.pairwise_append.2
    ⟨List.pairwise_append.2 ⟨List.pairwise_append.2 ⟨List.pairwise_append.2 ⟨layer_before hdx _, slotOps_before h2 (hpar fun s hs => List.mem_append_left _ hs), ?_⟩,
      cross_before _ _, ?_⟩, layer_before hdx _, ?_⟩, layer_before hx _, ?_⟩, layer_before hz _, ?_⟩, slotOps_before h2 (hpar fun s hs => List.mem_append_right _ hs), ?_⟩,
      cross_before _ _, ?_⟩, layer_before hz _, ?_⟩, layer_before hz _, ?_⟩
  · intro a ha b hb _ _ _
    have ha := (lay ha).2
    have hb := sx hb
    linarith
  · intro a _ b hb _ h _
    exact absurd (crs hb) h
  · intro a ha b hb
    simp only [List.mem_append] at ha
    rcases ha with (ha | ha) | ha
    · intro _ _ _; have ha := (lay ha).2; have hb := (lay hb).2; linarith
    · intro _ _ _; have ha := sx ha; have hb := (lay hb).2; linarith
    · intro h; exact absurd (crs ha) h
  · intro a ha b hb
    simp only [List.mem_append] at ha
    rcases ha with ((ha | ha) | ha) | ha
    · intro _ _ _; have ha := (lay ha).2; have hb := (lay hb).2; linarith
    · intro _ _ _; have ha := sx ha; have hb := (lay hb).2; linarith
    · intro h; exact absurd (crs ha) h
    · intro _ _ _; have ha := (lay ha).2; have hb := (lay hb).2; linarith
  · intro a ha b hb
    simp only [List.mem_append] at ha
    rcases ha with (((ha | ha) | ha) | ha) | ha
    · intro _ _ _; have ha := (lay ha).2; have hb := (lay hb).2; linarith
    · intro _ _ _; have ha := sx ha; have hb := (lay hb).2; linarith
    · intro h; exact absurd (crs ha) h
    · exact far (one (lay ha).1) (one (lay hb).1) (by decide)
    · exact far (one (lay ha).1) (one (lay hb).1) (by decide)
  · intro a ha b hb
    have hb := sz hb
    simp only [List.mem_append] at ha
    rcases ha with ((((ha | ha) | ha) | ha) | ha) | ha
    · intro _ _ _; have ha := (lay ha).2; linarith
    · intro _ _ _; have ha := sx ha; linarith
    · intro h; exact absurd (crs ha) h
    · intro _ _ _; have ha := (lay ha).2; linarith
    · exact far (one (lay ha).1) hb.1 (by decide)
    · intro _ _ _; have ha := (lay ha).2; linarith
  · intro a _ b hb _ h _
    exact absurd (crs hb) h
  · intro a ha b hb
    have hb := lay hb
    simp only [List.mem_append] at ha
    rcases ha with ((((((ha | ha) | ha) | ha) | ha) | ha) | ha) | ha
    · intro _ _ _; have ha := (lay ha).2; linarith
    · intro _ _ _; have ha := sx ha; linarith
    · intro h; exact absurd (crs ha) h
    · intro _ _ _; have ha := (lay ha).2; linarith
    · exact far (one (lay ha).1) (one hb.1) (by decide)
    · intro _ _ _; have ha := (lay ha).2; linarith
    · intro _ _ _; have ha := sz ha; linarith
    · intro h; exact absurd (crs ha) h
  · intro a ha b hb
    have hb := lay hb
    simp only [List.mem_append] at ha
    rcases ha with (((((((ha | ha) | ha) | ha) | ha) | ha) | ha) | ha) | ha
    · intro _ _ _; have ha := (lay ha).2; linarith
    · intro _ _ _; have ha := sx ha; linarith
    · intro h; exact absurd (crs ha) h
    · intro _ _ _; have ha := (lay ha).2; linarith
    · exact far (one (lay ha).1) (one hb.1) (by decide)
    · intro _ _ _; have ha := (lay ha).2; linarith
    · intro _ _ _; have ha := sz ha; linarith
    · intro h; exact absurd (crs ha) h
    · intro _ _ _; have ha := (lay ha).2; linarith

/-! ## Several rounds -/

omit [LinearOrder K] [IsStrictOrderedRing K] in
/-- C70: on the lattice and with parameters the rounds do not raise. -/
theorem c70_ok {coords : List (Int × Int)} (hl : ∀ q ∈ coords, (groupName q).isSome) (p : RoundParams K) : ∀ (n : Nat) (t : K),
    ∃ r, noisyRounds coords (some p) n t = .ok r
  | 0, t => ⟨_, rfl⟩
  | n + 1, t => by
    have h : addNoisyRound coords (some p) t = .ok (noisyRound coords p t) := by
      unfold addNoisyRound
      rw [if_pos (List.all_eq_true.2 hl)]
    obtain ⟨r, hr⟩ := c70_ok hl p n (noisyRound coords p t).2
    exact ⟨((noisyRound coords p t).1 ++ r.1, r.2), by rw [noisyRounds, h]; simp only; rw [hr]⟩

omit [LinearOrder K] [IsStrictOrderedRing K] in
/-- C70: without parameters a round raises, whatever the qubits. -/
theorem c70_none_violated (coords : List (Int × Int)) (t : K) : ∃ e, addNoisyRound coords (none : Option (RoundParams K)) t = .error e := by
  unfold addNoisyRound
  split <;> exact ⟨_, rfl⟩

omit [LinearOrder K] [IsStrictOrderedRing K] in
theorem rounds_cons {coords : List (Int × Int)} {p : RoundParams K} {n : Nat} {t : K} {ops : List (NoisyOp K)} {stop : K}
    (h : noisyRounds coords (some p) (n + 1) t = .ok (ops, stop)) : ∃ ops', noisyRounds coords (some p) n (noisyRound coords p t).2 = .ok (ops', stop) ∧
      ops = (noisyRound coords p t).1 ++ ops' := by
  have h1 : addNoisyRound coords (some p) t = .ok (noisyRound coords p t) := by
    unfold addNoisyRound at *
    rw [noisyRounds] at h
    unfold addNoisyRound at h
    split at h
    · simp at h
    · rename_i heq
      split at heq
      · rename_i hc; rw [if_pos hc]
      · cases heq
  rw [noisyRounds, h1] at h
  simp only at h
  cases h2 : noisyRounds coords (some p) n (noisyRound coords p t).2 with
  | error e => rw [h2] at h; cases h
  | ok r =>
    rw [h2] at h
    cases h
    exact ⟨r.1, rfl, rfl⟩

/-- **C70**: the same for any number of rounds: they follow each other, and on each qubit the operations, cross talk aside, happen in the order of the calls. -/
theorem c70_rounds {coords : List (Int × Int)} (hc : coords.Nodup) {p : RoundParams K} (hp : p.Sane) : ∀ {n : Nat} {t : K} {ops : List (NoisyOp K)} {stop : K},
    noisyRounds coords (some p) n t = .ok (ops, stop) → t ≤ stop ∧ (∀ o ∈ ops, t < o.time ∧ o.time ≤ stop) ∧ ops.Pairwise Before ∧
      ((ops.filter fun o => o.kind ≠ .cross).map fun o => (o.kind, o.qubits)) = (List.replicate n (idealRound coords)).flatten
  | 0, t, ops, stop, h => by cases h; simp
  | n + 1, t, ops, stop, h => by
    obtain ⟨ops', h1, rfl⟩ := rounds_cons h
    obtain ⟨i0, i1, i2, i3⟩ := c70_rounds hc hp h1
    have w := c70_within (coords := coords) hp (t := t)
    have e : (noisyRound coords p t).2 = t + 2 * p.T1 + 4 * p.T2 + p.tm + p.td := by rw [noisyRound_eq]
    have hlt : t ≤ (noisyRound coords p t).2 := by
      rw [e]
      obtain ⟨j1, j2, j3, j4, _, _⟩ := hp
      linarith
    refine ⟨hlt.trans i0, ?_, ?_, ?_⟩
    · intro o ho
      rcases List.mem_append.1 ho with ho | ho
      · exact ⟨(w o ho).1, (w o ho).2.trans i0⟩
      · exact ⟨lt_of_le_of_lt hlt (i1 o ho).1, (i1 o ho).2⟩
    · rw [List.pairwise_append]
      exact ⟨c70_order hc hp t, i2, fun a ha b hb _ _ _ => lt_of_le_of_lt (w a ha).2 (i1 b hb).1⟩
    · rw [List.filter_append, List.map_append, c70_ideal hc, i3, List.replicate_succ, List.flatten_cons]

/-! ## The windows of the idle noise -/

/-- A Hadamard gate on the qubit. -/
def onH (q : Int × Int) (o : NoisyOp K) : Bool := decide (o.kind = .hadamard) && decide (q ∈ o.qubits)

theorem idealRound_even (coords : List (Int × Int)) (q : Int × Int) :
    (idealRound coords).countP (fun x => decide (x.1 = .hadamard) && decide (q ∈ x.2)) % 2 = 0 := by
  have hn : ∀ l : List (Int × Int), (l.map fun q => (NoisyKind.nd, [q])).countP (fun x => decide (x.1 = .hadamard) && decide (q ∈ x.2)) = 0 := by
    intro l; rw [List.countP_eq_zero]; intro x hx; obtain ⟨y, _, rfl⟩ := List.mem_map.1 hx; simp
  have hcz : ∀ l : List ((Int × Int) × (Int × Int)), (l.map fun e => (NoisyKind.cz, [e.1, e.2])).countP (fun x => decide (x.1 = .hadamard) && decide (q ∈ x.2)) = 0 := by
    intro l; rw [List.countP_eq_zero]; intro x hx; obtain ⟨y, _, rfl⟩ := List.mem_map.1 hx; simp
  unfold idealRound
  simp only [List.countP_append, hn, hcz]
  omega

theorem round_even {coords : List (Int × Int)} (hc : coords.Nodup) (p : RoundParams K) (t : K) (q : Int × Int) :
    (noisyRound coords p t).1.countP (onH q) % 2 = 0 := by
  rw [← idealRound_even coords q, ← c70_ideal hc p t, List.countP_map, List.countP_filter]
  congr 1
  refine List.countP_congr fun o _ => ?_
  unfold onH
  cases hk : o.kind <;> simp [hk]

/-- On a qubit all Hadamard gates of a round come before the measurement. -/
theorem round_nd {coords : List (Int × Int)} {p : RoundParams K} (hp : p.Sane) {t : K} {e o : NoisyOp K} (he : e ∈ (noisyRound coords p t).1) (hk : e.kind = .nd)
    (ho : o ∈ (noisyRound coords p t).1) (hk' : o.kind = .hadamard) {q : Int × Int} (hq : q ∈ e.qubits) (hq' : q ∈ o.qubits) : o.time < e.time := by
  have hE := round_cases hp.T2 he
  have hO := round_cases hp.T2 ho
  rw [hk] at hE
  rw [hk'] at hO
  simp only [reduceCtorEq, false_and, false_or, or_false, true_and] at hE hO
  have one : ∀ {o : NoisyOp K} {qs : List (Int × Int)}, (∃ q ∈ qs, o.qubits = [q]) → ∀ q ∈ o.qubits, q ∈ qs := by
    rintro o qs ⟨q, hq, e⟩ q' hq'
    rw [e, List.mem_singleton] at hq'
    exact hq' ▸ hq
  obtain ⟨h1, h2, h3, h4, h5, h6⟩ := hp
  rcases hE with ⟨hE, te⟩ | ⟨hE, te⟩ <;> rcases hO with ⟨hO, tt⟩ | ⟨hO, tt⟩
  · rcases tt with tt | tt <;> rw [te, tt] <;> linarith
  · exact absurd (one hO q hq') (inGroups_disjoint (by decide) (one hE q hq))
  · exact absurd (one hE q hq) (inGroups_disjoint (by decide) (one hO q hq'))
  · rcases tt with tt | tt <;> rw [te, tt] <;> linarith

theorem rounds_even {coords : List (Int × Int)} (hc : coords.Nodup) {p : RoundParams K} (hp : p.Sane) (q : Int × Int) : ∀ {n : Nat} {t : K} {ops : List (NoisyOp K)} {stop : K},
    noisyRounds coords (some p) n t = .ok (ops, stop) → ∀ e ∈ ops, e.kind = .nd → q ∈ e.qubits →
      ops.countP (fun o => onH q o && decide (o.time < e.time)) % 2 = 0 ∧ ∀ o ∈ ops, onH q o = true → o.time ≠ e.time
  | 0, t, ops, stop, h => by cases h; simp
  | n + 1, t, ops, stop, h => by
    obtain ⟨ops', h1, rfl⟩ := rounds_cons h
    obtain ⟨_, i1, _, _⟩ := c70_rounds hc hp h1
    have ih := rounds_even hc hp q h1
    have w := c70_within (coords := coords) hp (t := t)
    intro e he hk hq
    rw [List.countP_append]
    rcases List.mem_append.1 he with he | he
    · have late : ∀ o ∈ ops', e.time < o.time := fun o ho => lt_of_le_of_lt (w e he).2 (i1 o ho).1
      have early : ∀ o ∈ (noisyRound coords p t).1, onH q o = true → o.time < e.time := by
        intro o ho hH
        unfold onH at hH
        simp only [Bool.and_eq_true, decide_eq_true_eq] at hH
        exact round_nd hp he hk ho hH.1 hq hH.2
      have z : ops'.countP (fun o => onH q o && decide (o.time < e.time)) = 0 := by
        rw [List.countP_eq_zero]
        intro o ho
        have := late o ho
        simp [this.le]
      have s : (noisyRound coords p t).1.countP (fun o => onH q o && decide (o.time < e.time)) = (noisyRound coords p t).1.countP (onH q) := by
        refine List.countP_congr fun o ho => ?_
        simp only [Bool.and_eq_true, decide_eq_true_eq]
        exact ⟨fun h => h.1, fun h => ⟨h, early o ho h⟩⟩
      rw [z, s, Nat.add_zero]
      refine ⟨round_even hc p t q, fun o ho hH => ?_⟩
      rcases List.mem_append.1 ho with ho | ho
      · exact (early o ho hH).ne
      · exact (late o ho).ne'
    · have early : ∀ o ∈ (noisyRound coords p t).1, o.time < e.time := fun o ho => lt_of_le_of_lt (w o ho).2 (i1 e he).1
      have s : (noisyRound coords p t).1.countP (fun o => onH q o && decide (o.time < e.time)) = (noisyRound coords p t).1.countP (onH q) := by
        refine List.countP_congr fun o ho => ?_
        simp only [Bool.and_eq_true, decide_eq_true_eq]
        exact ⟨fun h => h.1, fun h => ⟨h, early o ho⟩⟩
      obtain ⟨j1, j2⟩ := ih e he hk hq
      have j0 := round_even hc p t q
      rw [s]
      refine ⟨by omega, fun o ho hH => ?_⟩
      rcases List.mem_append.1 ho with ho | ho
      · exact (early o ho).ne
      · exact j2 o ho hH

theorem rotPairs_ne {coords : List (Int × Int)} {s : ((Grp × Grp) × (Grp × Grp)) × Grp} {e : (Int × Int) × (Int × Int)} (he : e ∈ rotPairs coords s) : e.1 ≠ e.2 := by
  have ha : adjacent e.1 e.2 = true := by
    unfold rotPairs at he
    rw [List.mem_append, List.mem_append, mem_czRotations, mem_czRotations, mem_czRotations] at he
    rcases he with (he | he) | he <;> exact he.2.2
  intro h
  rw [adjacent_iff, h] at ha
  omega

theorem rounds_nodup {coords : List (Int × Int)} {p : RoundParams K} (hp : p.Sane) : ∀ {n : Nat} {t : K} {ops : List (NoisyOp K)} {stop : K},
    noisyRounds coords (some p) n t = .ok (ops, stop) → ∀ o ∈ ops, o.qubits.Nodup
  | 0, t, ops, stop, h => by cases h; simp
  | n + 1, t, ops, stop, h => by
    obtain ⟨ops', h1, rfl⟩ := rounds_cons h
    intro o ho
    rcases List.mem_append.1 ho with ho | ho
    · rcases round_cases hp.T2 ho with h | h | h | h | h | h | h | h
      all_goals
        obtain ⟨_, hq, _⟩ := h
        first
        | (obtain ⟨q, _, hq⟩ := hq; rw [hq]; simp)
        | (obtain ⟨s, _, e, he, hq⟩ := hq; rw [hq]; simpa using rotPairs_ne he)
    · exact rounds_nodup hp h1 o ho

/-- **C70**: for any number of rounds and any numbering of the qubits, the idle noise gets only windows in order: of the length of the idle gate, not before the
photons, and with `Dt` not negative. This is the hypothesis of C69 for the circuit of the demo; `events` is the circuit in the order of time. -/
theorem c70_windows {coords : List (Int × Int)} (hc : coords.Nodup) {p : RoundParams K} (hp : p.Sane) {n : Nat} {t : K} {ops : List (NoisyOp K)} {stop : K}
    (h : noisyRounds coords (some p) n t = .ok (ops, stop)) {enc : Int × Int → Int} (henc : Function.Injective enc) {events : List (Event K)}
    (he : events.Perm (ops.map (NoisyOp.event enc))) (hs : events.Pairwise fun x y => x.time ≤ y.time) {start last : Option K} {out : List (IdleOp K)}
    (hout : addIdleNoise events start last = .ok out) : ∀ i ∈ out, ∀ w ∈ i.ts, 0 ≤ w.start ∧ w.stop - w.start = i.dur ∧ 0 ≤ w.Dt := by
  have hnd : ∀ e ∈ events, e.qubits.Nodup := by
    intro e hm
    obtain ⟨o, ho, rfl⟩ := List.mem_map.1 (he.mem_iff.1 hm)
    exact (rounds_nodup hp h o ho).map henc
  intro i hi
  refine c69_windows_partial hs hnd hout (q := i.qubit) ?_ i hi rfl
  intro a e b hab hk
  have hm : e ∈ events.filter fun e => i.qubit ∈ e.qubits := by rw [hab]; simp
  obtain ⟨hm, hq⟩ := List.mem_filter.1 hm
  obtain ⟨o, ho, rfl⟩ := List.mem_map.1 (he.mem_iff.1 hm)
  obtain ⟨q, hqo, hqe⟩ := List.mem_map.1 (of_decide_eq_true hq)
  obtain ⟨ev, ne⟩ := rounds_even hc hp q h o ho (of_decide_eq_true hk) hqo
  have hsort : (a ++ o.event enc :: b).Pairwise fun x y => x.time ≤ y.time := by rw [← hab]; exact hs.filter _
  obtain ⟨_, s2, s3⟩ := List.pairwise_append.1 hsort
  have s4 := (List.pairwise_cons.1 s2).1
  -- the condition on events that corresponds to `onH`
  have key : ∀ o' : NoisyOp K, onH q o' = ((o'.event enc).noisyH && decide (i.qubit ∈ (o'.event enc).qubits)) := by
    intro o'
    unfold onH NoisyOp.event
    simp only [← hqe]
    congr 1
    rw [decide_eq_decide]
    exact (List.mem_map_of_injective henc).symm
  have tot : (events.filter fun e => i.qubit ∈ e.qubits).countP (fun x => x.noisyH && decide (x.time < o.time)) =
      ops.countP (fun o' => onH q o' && decide (o'.time < o.time)) := by
    rw [List.countP_filter, he.countP_eq, List.countP_map]
    refine List.countP_congr fun o' _ => ?_
    rw [key]
    simp only [Function.comp, Bool.and_eq_true, decide_eq_true_eq]
    show ((_ ∧ o'.time < o.time) ∧ _) ↔ _
    tauto
  have hne : ∀ x ∈ a ++ o.event enc :: b, x.noisyH = true → x.time ≠ o.time := by
    intro x hx hH
    rw [← hab] at hx
    obtain ⟨hx, hxq⟩ := List.mem_filter.1 hx
    obtain ⟨o', ho', rfl⟩ := List.mem_map.1 (he.mem_iff.1 hx)
    exact ne o' ho' (by rw [key, hH, hxq]; rfl)
  rw [← tot, hab, List.countP_append] at ev
  have ca : a.countP (fun x => x.noisyH && decide (x.time < o.time)) = a.countP Event.noisyH := by
    refine List.countP_congr fun x hx => ?_
    simp only [Bool.and_eq_true, decide_eq_true_eq]
    exact ⟨fun h => h.1, fun h => ⟨h, lt_of_le_of_ne (s3 x hx _ List.mem_cons_self) (hne x (List.mem_append_left _ hx) h)⟩⟩
  have cb : (o.event enc :: b).countP (fun x => x.noisyH && decide (x.time < o.time)) = 0 := by
    rw [List.countP_eq_zero]
    intro x hx
    rcases List.mem_cons.1 hx with rfl | hx
    · simp [NoisyOp.event]
    · have : o.time ≤ x.time := s4 x hx
      simp [this]
  rw [ca, cb, Nat.add_zero] at ev
  exact ev

/-! ## The names of the operations -/

theorem dance_nodup {coords : List (Int × Int)} (hc : coords.Nodup) {l : List ((Int × Int) × (Int × Int))} {gs : List Grp} (hg : gs.Nodup)
    (h : (l.map orient).Perm ((inGroups coords gs).flatMap fun a => (coords.filter (adjacent a)).map fun d => (a, d))) : l.Nodup := by
  refine List.Nodup.of_map orient (h.nodup_iff.2 ?_)
  rw [List.nodup_flatMap]
  refine ⟨fun a _ => (hc.filter _).map fun x y e => (Prod.mk.inj e).2, (inGroups_nodup hc hg).imp ?_⟩
  intro a b hab x hx hx'
  obtain ⟨d, _, rfl⟩ := List.mem_map.1 hx
  obtain ⟨d', _, e⟩ := List.mem_map.1 hx'
  exact hab (Prod.mk.inj e).1.symm

theorem round_names {coords : List (Int × Int)} (hc : coords.Nodup) {p : RoundParams K} (hp : p.Sane) (t : K) :
    ((noisyRound coords p t).1.map fun o => (o.time, o.qubits)).Nodup := by
  have hne : ∀ o ∈ (noisyRound coords p t).1, ∃ q, q ∈ o.qubits := by
    intro o ho
    rcases round_cases hp.T2 ho with h | h | h | h | h | h | h | h
    all_goals
      obtain ⟨_, hq, _⟩ := h
      first
      | (obtain ⟨q, _, hq⟩ := hq; rw [hq]; exact ⟨q, by simp⟩)
      | (obtain ⟨s, _, e, he, hq⟩ := hq; rw [hq]; exact ⟨e.1, by simp⟩)
  refine ((List.filter_append_perm (fun o => decide (o.kind ≠ .cross)) _).map _).nodup_iff.1 ?_
  rw [List.map_append, List.nodup_append]
  refine ⟨?_, ?_, ?_⟩
  · rw [List.Nodup, List.pairwise_map]
    refine List.Pairwise.imp_of_mem ?_ ((c70_order hc hp t).filter _)
    intro a b ha hb hab e
    obtain ⟨ha, ha'⟩ := List.mem_filter.1 ha
    obtain ⟨_, hb'⟩ := List.mem_filter.1 hb
    obtain ⟨q, hq⟩ := hne a ha
    have := hab (of_decide_eq_true ha') (of_decide_eq_true hb') ⟨q, hq, (Prod.mk.inj e).2 ▸ hq⟩
    exact this.ne (Prod.mk.inj e).1
  · have hl : ∀ (k : NoisyKind) (qs : List (Int × Int)) (u : K), k ≠ .cross → (layerOps k qs u).filter (fun o => !decide (o.kind ≠ .cross)) = [] := by
      intro k qs u hk
      rw [List.filter_eq_nil_iff]
      intro o ho
      obtain ⟨q, _, rfl⟩ := List.mem_map.1 ho
      simpa using hk
    have hs : ∀ (l : List (((Grp × Grp) × (Grp × Grp)) × Grp)) (u : K), (slotOps coords p.T2 l u).1.filter (fun o => !decide (o.kind ≠ .cross)) = [] := by
      intro l u
      rw [List.filter_eq_nil_iff, ← filter_slots]
      intro o ho
      simpa using (List.mem_filter.1 ho).2
    have hx : ∀ (l : List (((Grp × Grp) × (Grp × Grp)) × Grp)) (u : K), ((crossOps coords l u).filter (fun o => !decide (o.kind ≠ .cross))).map (fun o => (o.time, o.qubits)) =
        (l.flatMap (rotPairs coords)).map fun e => (u, [e.1, e.2]) := by
      intro l u
      rw [List.filter_eq_self.2]
      · unfold crossOps
        rw [List.map_flatMap, List.map_flatMap]
        congr 1
        funext s
        rw [List.map_map]
        rfl
      · intro o ho
        obtain ⟨s, _, ho⟩ := List.mem_flatMap.1 ho
        obtain ⟨e, _, rfl⟩ := List.mem_map.1 ho
        simp
    have inj : ∀ {l : List ((Int × Int) × (Int × Int))} (u : K), l.Nodup → (l.map fun e => (u, [e.1, e.2])).Nodup := by
      intro l u hl
      refine hl.map fun x y e => ?_
      simp only [Prod.mk.injEq, List.cons.injEq, and_true, true_and] at e
      exact Prod.ext e.1 e.2
    rw [noisyRound_eq]
    simp only [List.filter_append, hl .hadamard _ _ (by decide), hl .nd _ _ (by decide), hs, hx, List.map_append, List.append_nil, List.nil_append]
    rw [flatMap_zip hc (fun s hs => List.mem_append_left _ hs) (by rfl), flatMap_zip hc (fun s hs => List.mem_append_right _ hs) (by rfl), List.nodup_append]
    refine ⟨inj _ (dance_nodup hc (by decide) (c67_z_pairs hc)), inj _ (dance_nodup hc (by decide) (c67_x_pairs hc)), ?_⟩
    intro a ha b hb
    obtain ⟨e, _, rfl⟩ := List.mem_map.1 ha
    obtain ⟨e', _, rfl⟩ := List.mem_map.1 hb
    intro h
    have := (Prod.mk.inj h).1
    obtain ⟨h1, h2, h3, h4, h5, h6⟩ := hp
    linarith
  · intro a ha b hb
    obtain ⟨o, ho, rfl⟩ := List.mem_map.1 ha
    obtain ⟨o', ho', rfl⟩ := List.mem_map.1 hb
    obtain ⟨ho, hk⟩ := List.mem_filter.1 ho
    obtain ⟨ho', hk'⟩ := List.mem_filter.1 ho'
    intro h
    obtain ⟨ht, hq⟩ := Prod.mk.inj h
    have hk := of_decide_eq_true hk
    have hk' : o'.kind = .cross := by simpa using hk'
    have c := round_cases hp.T2 ho
    have c' := round_cases hp.T2 ho'
    rw [hk'] at c'
    simp only [reduceCtorEq, false_and, false_or, or_false, true_and] at c'
    obtain ⟨h1, h2, h3, h4, h5, h6⟩ := hp
    have pair : ∃ x y, o.qubits = [x, y] := by
      rcases c' with ⟨⟨s, _, e, _, c'⟩, _⟩ | ⟨⟨s, _, e, _, c'⟩, _⟩ <;> exact ⟨_, _, hq.trans c'⟩
    obtain ⟨x, y, hxy⟩ := pair
    rw [hxy] at c
    simp only [List.cons.injEq, reduceCtorEq, and_false, exists_false, false_and, false_or, or_false, hk] at c
    rcases c with ⟨_, _, c⟩ | ⟨_, _, c⟩ <;> rcases c' with ⟨_, c'⟩ | ⟨_, c'⟩ <;> linarith

/-- **C70**: no two calls of `append` in any number of rounds use the same name `(time_step, qubits)`, so no operation overwrites another (circuit.py:822-827). -/
theorem c70_names {coords : List (Int × Int)} (hc : coords.Nodup) {p : RoundParams K} (hp : p.Sane) : ∀ {n : Nat} {t : K} {ops : List (NoisyOp K)} {stop : K},
    noisyRounds coords (some p) n t = .ok (ops, stop) → (ops.map fun o => (o.time, o.qubits)).Nodup
  | 0, t, ops, stop, h => by cases h; simp
  | n + 1, t, ops, stop, h => by
    obtain ⟨ops', h1, rfl⟩ := rounds_cons h
    obtain ⟨_, i1, _, _⟩ := c70_rounds hc hp h1
    rw [List.map_append, List.nodup_append]
    refine ⟨round_names hc hp t, c70_names hc hp h1, ?_⟩
    intro a ha b hb e
    obtain ⟨o, ho, rfl⟩ := List.mem_map.1 ha
    obtain ⟨o', ho', rfl⟩ := List.mem_map.1 hb
    have := lt_of_le_of_lt (c70_within hp o ho).2 (i1 o' ho').1
    exact this.ne (Prod.mk.inj e).1

/-! ## The cross talk makes the circuit invalid -/

/-- C70: in the demo two cross talk gates of one round use a common qubit at the same time, whatever the parameters. -/
theorem c70_clash_violated (p : RoundParams K) (t : K) : ∃ a b : NoisyOp K, [a, b].Sublist (noisyRound demoCoords p t).1 ∧ a.time = b.time ∧
    ∃ q ∈ a.qubits, q ∈ b.qubits := by
  have h : ∃ e e' : (Int × Int) × (Int × Int), [e, e'].Sublist ((zDance.zip zLast).flatMap (rotPairs demoCoords)) ∧ ∃ q ∈ [e.1, e.2], q ∈ [e'.1, e'.2] :=
    ⟨((0, 4), (1, 3)), ((1, 3), (2, 4)), by decide +kernel, (1, 3), by decide, by decide⟩
  obtain ⟨e, e', h1, h2⟩ := h
  have h3 := h1.map fun e => (⟨.cross, [e.1, e.2], t + p.T1 + 4 * p.T2⟩ : NoisyOp K)
  rw [List.map_flatMap] at h3
  refine ⟨⟨.cross, [e.1, e.2], t + p.T1 + 4 * p.T2⟩, ⟨.cross, [e'.1, e'.2], t + p.T1 + 4 * p.T2⟩, ?_, rfl, h2⟩
  rw [noisyRound_eq]
  simp only [List.append_assoc]
  refine (h3.trans ?_).trans (List.sublist_append_right _ _)
  refine List.Sublist.trans ?_ (List.sublist_append_right _ _)
  exact List.sublist_append_left _ _

omit [IsStrictOrderedRing K] in
theorem clash_no_shape {α : Type} {sh : Circ.ShapeFn α} {c : Circ α} (hf : Fitting sh c) {x y : Nm × OpRec α} (h : [x, y].Sublist c) (ht : x.2.time = y.2.time)
    {q : Int} (hx : q ∈ x.2.qubits) (hy : q ∈ y.2.qubits) : ∀ s, c.shape sh ≠ .ok s := by
  intro s hs
  obtain ⟨l, ⟨hp, hl⟩, _⟩ := (Circ.c35_shape_iff hf).1 ⟨s, hs⟩ q
  have hsub : [x, y].Sublist (c.filter fun p => q ∈ p.2.qubits) := by
    have := h.filter fun p => decide (q ∈ p.2.qubits)
    rwa [List.filter_eq_self.2 (by simp [hx, hy])] at this
  have hn : ((c.filter fun p => q ∈ p.2.qubits).map fun p => p.2.time).Nodup := by
    rw [← (hp.map _).nodup_iff, List.Nodup, List.pairwise_map]
    exact hl.imp fun h => ne_of_lt h
  have := hn.sublist (hsub.map _)
  simp [ht] at this

/-- **C70**, what fails: the circuit to which a round of the demo is appended has no shape and so is not valid (C35), for all parameters and however the times are
written as integers by `f`: the gates of the cross talk clash. -/
theorem c70_shape_violated {α : Type} {sh : Circ.ShapeFn α} {c : Circ α} (hf : Fitting sh c) (p : RoundParams K) (t : K) (f : K → Int) (enc : Int × Int → Int)
    (h : (c.map fun x => (x.2.time, x.2.qubits)) = (noisyRound demoCoords p t).1.map fun o => (f o.time, o.qubits.map enc)) : ∀ s, c.shape sh ≠ .ok s := by
  obtain ⟨a, b, hab, ht, q, hq, hq'⟩ := c70_clash_violated p t
  have hs := hab.map fun o => (f o.time, o.qubits.map enc)
  rw [← h, List.sublist_map_iff] at hs
  obtain ⟨l, hl, e⟩ := hs
  match l, hl, e with
  | [], _, e => simp at e
  | [_], _, e => simp at e
  | _ :: _ :: _ :: _, _, e => simp at e
  | [x, y], hl, e =>
    simp only [List.map_cons, List.map_nil, List.cons.injEq, Prod.mk.injEq, and_true] at e
    refine clash_no_shape hf hl (by rw [← e.1.1, ← e.2.1, ht]) (q := enc q) ?_ ?_
    · rw [← e.1.2]; exact List.mem_map_of_mem hq
    · rw [← e.2.2]; exact List.mem_map_of_mem hq'

/-! ## The demo meets the hypotheses -/

/-- The parameters of the demo (demo/QEC/noise_model.py:11-14). -/
def demoParams : RoundParams ℚ := { T1 := 20, T2 := 40, tm := 300, td := 300 }

theorem demo_sane : demoParams.Sane := by constructor <;> norm_num [demoParams]

example : ∃ r, noisyRounds demoCoords (some demoParams) 2 0 = .ok r := c70_ok (by decide) _ _ _

/-- A round has 17 qubits; 24 CZ gates, as many gates of cross talk, 8 measurements. -/
example : (noisyRound demoCoords demoParams 0).1.length = 90 ∧ (noisyRound demoCoords demoParams 0).2 = 800 := by decide +kernel

/-- The windows of two rounds: there are some. -/
example : ∃ (ops : List (NoisyOp ℚ)) (stop : ℚ) (events : List (Event ℚ)) (out : List (IdleOp ℚ)),
    noisyRounds demoCoords (some demoParams) 2 0 = .ok (ops, stop) ∧ events.Perm (ops.map (NoisyOp.event Oper.pairUp)) ∧
    (events.Pairwise fun x y => x.time ≤ y.time) ∧ addIdleNoise events none none = .ok out ∧
    ∀ i ∈ out, ∀ w ∈ i.ts, 0 ≤ w.start ∧ w.stop - w.start = i.dur ∧ 0 ≤ w.Dt := by
  obtain ⟨r, hr⟩ := c70_ok (coords := demoCoords) (by decide) demoParams 2 0
  obtain ⟨out, hout⟩ := c69_ok ((r.1.map (NoisyOp.event Oper.pairUp)).insertionSort fun x y => x.time ≤ y.time) none none
  have hsort : ((r.1.map (NoisyOp.event Oper.pairUp)).insertionSort fun x y => x.time ≤ y.time).Pairwise fun x y => x.time ≤ y.time := by
    have : Std.Total fun x y : Event ℚ => x.time ≤ y.time := ⟨fun x y => le_total _ _⟩
    have : IsTrans (Event ℚ) fun x y => x.time ≤ y.time := ⟨fun x y z => le_trans⟩
    exact List.pairwise_insertionSort _ _
  exact ⟨r.1, r.2, _, out, hr, List.perm_insertionSort _ _, hsort, hout, c70_windows demoCoords_nodup demo_sane hr Oper.pairUp_injective (List.perm_insertionSort _ _) hsort hout⟩

/-- A circuit as in `c70_shape_violated`. -/
example : ∃ (c : Circ Nat), Fitting (fun n => .ok (List.replicate n [.c])) c ∧
    (c.map fun x => (x.2.time, x.2.qubits)) = (noisyRound demoCoords demoParams 0).1.map fun o => (⌊o.time⌋, o.qubits.map Oper.pairUp) := by
  obtain ⟨r, hr⟩ := c70_ok (coords := demoCoords) (by decide) demoParams 1 0
  obtain ⟨ops, h1, h2⟩ := rounds_cons (stop := r.2) (ops := r.1) hr
  refine ⟨(noisyRound demoCoords demoParams 0).1.map fun o => (.nil, { op := o.qubits.length, time := ⌊o.time⌋, qubits := o.qubits.map Oper.pairUp }), ?_, by rw [List.map_map]; rfl⟩
  intro x hx
  obtain ⟨o, ho, rfl⟩ := List.mem_map.1 hx
  refine ⟨_, rfl, by simp, (rounds_nodup demo_sane hr o (h2 ▸ List.mem_append_left _ ho)).map Oper.pairUp_injective⟩

end Qec

end Verif
