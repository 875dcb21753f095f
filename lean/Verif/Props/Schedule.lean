import Verif.Model.Surface
import Mathlib.Data.List.Nodup
import Mathlib.Data.List.Pairwise
/-!
# C67: the schedule of the CZ gates of the surface code demo
-/

namespace Verif

namespace Qec

/-- The sites of the lattice of a group, modulo 4. -/
def site : Grp → Option (Int × Int)
  | .D1 => some (0, 0)
  | .D2 => some (0, 2)
  | .D3 => some (2, 0)
  | .D4 => some (2, 2)
  | .X1 => some (1, 1)
  | .Z1 => some (1, 3)
  | .Z2 => some (3, 1)
  | .X2 => some (3, 3)
  | .dummy => none

theorem groupName_iff (q : Int × Int) (g : Grp) : groupName q = some g ↔ site g = some (q.1 % 4, q.2 % 4) := by
  have h1 : 0 ≤ q.1 % 4 ∧ q.1 % 4 < 4 := ⟨by omega, by omega⟩
  have h2 : 0 ≤ q.2 % 4 ∧ q.2 % 4 < 4 := ⟨by omega, by omega⟩
  unfold groupName
  generalize q.1 % 4 = a at *
  generalize q.2 % 4 = b at *
  obtain ⟨h1, h1'⟩ := h1
  obtain ⟨h2, h2'⟩ := h2
  have ha : a = 0 ∨ a = 1 ∨ a = 2 ∨ a = 3 := by omega
  have hb : b = 0 ∨ b = 1 ∨ b = 2 ∨ b = 3 := by omega
  rcases ha with rfl | rfl | rfl | rfl <;> rcases hb with rfl | rfl | rfl | rfl <;> cases g <;> decide

theorem mem_group {coords : List (Int × Int)} {g : Grp} {q : Int × Int} :
    q ∈ group coords g ↔ q ∈ coords ∧ site g = some (q.1 % 4, q.2 % 4) := by
  unfold group
  rw [List.mem_filter, decide_eq_true_eq, groupName_iff]

theorem adjacent_iff {p q : Int × Int} : adjacent p q = true ↔
    (p.1 = q.1 + 1 ∨ q.1 = p.1 + 1) ∧ (p.2 = q.2 + 1 ∨ q.2 = p.2 + 1) := by
  simp only [adjacent, Bool.and_eq_true, decide_eq_true_eq]
  omega

/-- The pairs of groups of the two schedules: one of data qubits, one of ancillas. -/
def partners (g h : Grp) : Bool :=
  match g, h with
  | .D1, .X1 | .D1, .X2 | .D1, .Z1 | .D1, .Z2 | .D2, .X1 | .D2, .X2 | .D2, .Z1 | .D2, .Z2 => true
  | .X1, .D3 | .X2, .D3 | .Z1, .D3 | .Z2, .D3 | .X1, .D4 | .X2, .D4 | .Z1, .D4 | .Z2, .D4 => true
  | _, _ => false

theorem adjacent_unique {g h : Grp} (hp : partners g h = true) {p p' q q' : Int × Int} (h1 : site g = some (p.1 % 4, p.2 % 4))
    (h1' : site g = some (p'.1 % 4, p'.2 % 4)) (h2 : site h = some (q.1 % 4, q.2 % 4)) (h2' : site h = some (q'.1 % 4, q'.2 % 4))
    (ha : adjacent p q = true) (ha' : adjacent p' q' = true) : p = p' ↔ q = q' := by
  rw [adjacent_iff] at ha ha'
  rw [Prod.ext_iff, Prod.ext_iff]
  cases g <;> cases h <;> first | (exact absurd hp (by decide)) | skip
  all_goals
    simp only [site, Option.some.injEq, Prod.mk.injEq] at h1 h1' h2 h2'
    omega

theorem partners_asymm {g h : Grp} (h1 : partners g h = true) (h2 : partners h g = true) : False := by
  cases g <;> cases h <;> first | (exact absurd h1 (by decide)) | (exact absurd h2 (by decide))

theorem mem_czRotations {high low : List (Int × Int)} {e : (Int × Int) × (Int × Int)} :
    e ∈ czRotations high low ↔ e.1 ∈ high ∧ e.2 ∈ low ∧ adjacent e.1 e.2 = true := by
  obtain ⟨p, q⟩ := e
  simp only [czRotations, List.mem_flatMap, List.mem_map, List.mem_filter, Prod.mk.injEq]
  constructor
  · rintro ⟨p', hp, q', ⟨h1, h2⟩, rfl, rfl⟩
    exact ⟨hp, h1, h2⟩
  · rintro ⟨h1, h2, h3⟩
    exact ⟨p, h1, q, ⟨h2, h3⟩, rfl, rfl⟩

theorem czRotations_nodup {high low : List (Int × Int)} (h1 : high.Nodup) (h2 : low.Nodup) : (czRotations high low).Nodup := by
  unfold czRotations
  rw [List.nodup_flatMap]
  refine ⟨fun p _ => (h2.filter _).map fun a b h => by simpa using h, ?_⟩
  refine h1.imp fun {a b} hab => ?_
  intro e he he'
  rw [List.mem_map] at he he'
  obtain ⟨_, _, rfl⟩ := he
  obtain ⟨_, _, h⟩ := he'
  exact hab (Prod.mk.inj h).1.symm

theorem group_nodup {coords : List (Int × Int)} (h : coords.Nodup) (g : Grp) : (group coords g).Nodup := h.filter _

/-- **C67**: the `break` of `add_CZ_gates` leaves out no gate: it and `add_CZ_rotations` choose the same pairs. -/
theorem c67_break {coords : List (Int × Int)} (hc : coords.Nodup) {g h : Grp} (hp : partners g h = true) :
    czGates (group coords g) (group coords h) = czRotations (group coords g) (group coords h) := by
  unfold czGates czRotations
  refine List.flatMap_congr fun p hpg => ?_
  have hu : ∀ q ∈ group coords h, ∀ q' ∈ group coords h, adjacent p q = true → adjacent p q' = true → q = q' := by
    intro q hq q' hq' ha ha'
    exact (adjacent_unique hp (mem_group.1 hpg).2 (mem_group.1 hpg).2 (mem_group.1 hq).2 (mem_group.1 hq').2 ha ha').1 rfl
  have hn := group_nodup hc h
  revert hu hn
  generalize group coords h = l
  intro hu hn
  induction l with
  | nil => rfl
  | cons q l ih =>
    by_cases ha : adjacent p q = true
    · rw [List.find?_cons_of_pos ha, List.filter_cons_of_pos ha]
      have : l.filter (adjacent p) = [] := by
        rw [List.filter_eq_nil_iff]
        intro q' hq' ha'
        have := hu q List.mem_cons_self q' (List.mem_cons_of_mem _ hq') ha ha'
        subst this
        exact (List.nodup_cons.1 hn).1 hq'
      rw [this]
      rfl
    · rw [List.find?_cons_of_neg ha, List.filter_cons_of_neg ha]
      exact ih (fun q hq q' hq' => hu q (List.mem_cons_of_mem _ hq) q' (List.mem_cons_of_mem _ hq')) (List.nodup_cons.1 hn).2

/-- The slots of a schedule fit together: data and ancillas, four different groups. -/
def slotOk (s : (Grp × Grp) × (Grp × Grp)) : Bool :=
  partners s.1.1 s.1.2 && partners s.2.1 s.2.2 && [s.1.1, s.1.2, s.2.1, s.2.2].Nodup

theorem slots_ok : ∀ s ∈ xDance ++ zDance, slotOk s = true := by decide

theorem mem_slotPairs {coords : List (Int × Int)} (hc : coords.Nodup) {s : (Grp × Grp) × (Grp × Grp)} (hs : slotOk s = true)
    {e : (Int × Int) × (Int × Int)} : e ∈ slotPairs coords s ↔ adjacent e.1 e.2 = true ∧
      ((e.1 ∈ group coords s.1.1 ∧ e.2 ∈ group coords s.1.2) ∨ (e.1 ∈ group coords s.2.1 ∧ e.2 ∈ group coords s.2.2)) := by
  simp only [slotOk, Bool.and_eq_true] at hs
  unfold slotPairs
  rw [c67_break hc hs.1.1, c67_break hc hs.1.2, List.mem_append, mem_czRotations, mem_czRotations]
  tauto

theorem group_disjoint {coords : List (Int × Int)} {g h : Grp} (hne : g ≠ h) {p : Int × Int} (h1 : p ∈ group coords g) : p ∉ group coords h := by
  intro h2
  rw [mem_group, ← groupName_iff] at h1 h2
  rw [h1.2] at h2
  exact hne (Option.some.inj h2.2)

theorem slotPairs_nodup {coords : List (Int × Int)} (hc : coords.Nodup) {s : (Grp × Grp) × (Grp × Grp)} (hs : slotOk s = true) :
    (slotPairs coords s).Nodup := by
  simp only [slotOk, Bool.and_eq_true, decide_eq_true_eq, List.nodup_cons, List.mem_cons, not_or] at hs
  unfold slotPairs
  rw [c67_break hc hs.1.1, c67_break hc hs.1.2, List.nodup_append]
  refine ⟨czRotations_nodup (group_nodup hc _) (group_nodup hc _), czRotations_nodup (group_nodup hc _) (group_nodup hc _), ?_⟩
  rintro a ha _ hb rfl
  rw [mem_czRotations] at ha hb
  exact group_disjoint hs.2.1.2.1 ha.1 hb.1

/-- **C67**: in one time slot no qubit takes part in two CZ gates, whatever the region of the lattice. -/
theorem c67_parallel {coords : List (Int × Int)} (hc : coords.Nodup) {s : (Grp × Grp) × (Grp × Grp)} (hs : s ∈ xDance ++ zDance) :
    ((slotPairs coords s).flatMap fun e => [e.1, e.2]).Nodup := by
  have hok := slots_ok s hs
  have hn := slotPairs_nodup hc hok
  rw [List.nodup_flatMap]
  constructor
  · intro e he
    rw [mem_slotPairs hc hok, adjacent_iff] at he
    have : e.1 ≠ e.2 := fun h => by have := congrArg Prod.fst h; omega
    simp [this]
  · refine hn.pairwise_of_forall_ne fun e he e' he' hne => ?_
    rw [mem_slotPairs hc hok] at he he'
    simp only [slotOk, Bool.and_eq_true, decide_eq_true_eq, List.nodup_cons, List.mem_cons, not_or] at hok
    obtain ⟨⟨hp1, hp2⟩, ⟨n12, n13, n14, -⟩, ⟨n23, n24, -⟩, ⟨n34, -⟩, -⟩ := hok
    obtain ⟨ha, he⟩ := he
    obtain ⟨ha', he'⟩ := he'
    have key : e.1 ≠ e'.1 ∧ e.1 ≠ e'.2 ∧ e.2 ≠ e'.1 ∧ e.2 ≠ e'.2 := by
      rcases he with ⟨h1, h2⟩ | ⟨h1, h2⟩ <;> rcases he' with ⟨h1', h2'⟩ | ⟨h1', h2'⟩
      · have hu := adjacent_unique hp1 (mem_group.1 h1).2 (mem_group.1 h1').2 (mem_group.1 h2).2 (mem_group.1 h2').2 ha ha'
        exact ⟨fun h => hne (Prod.ext h (hu.1 h)), fun h => group_disjoint n12 h1 (h ▸ h2'), fun h => group_disjoint n12 h1' (h ▸ h2),
          fun h => hne (Prod.ext (hu.2 h) h)⟩
      · exact ⟨fun h => group_disjoint n13 h1 (h ▸ h1'), fun h => group_disjoint n14 h1 (h ▸ h2'),
          fun h => group_disjoint n23 h2 (h ▸ h1'), fun h => group_disjoint n24 h2 (h ▸ h2')⟩
      · exact ⟨fun h => group_disjoint n13 h1' (h ▸ h1), fun h => group_disjoint n23 h2' (h ▸ h1),
          fun h => group_disjoint n14 h1' (h ▸ h2), fun h => group_disjoint n24 h2' (h ▸ h2)⟩
      · have hu := adjacent_unique hp2 (mem_group.1 h1).2 (mem_group.1 h1').2 (mem_group.1 h2).2 (mem_group.1 h2').2 ha ha'
        exact ⟨fun h => hne (Prod.ext h (hu.1 h)), fun h => group_disjoint n34 h1 (h ▸ h2'), fun h => group_disjoint n34 h1' (h ▸ h2),
          fun h => hne (Prod.ext (hu.2 h) h)⟩
    intro q hq hq'
    simp only [List.mem_cons, List.not_mem_nil, or_false] at hq hq'
    rcases hq with rfl | rfl <;> rcases hq' with h | h
    · exact key.1 h
    · exact key.2.1 h
    · exact key.2.2.1 h
    · exact key.2.2.2 h

/-- The ancilla first: it has odd coordinates. -/
def orient (e : (Int × Int) × (Int × Int)) : (Int × Int) × (Int × Int) := if e.1.1 % 2 = 1 then e else (e.2, e.1)

theorem schedule_perm {coords : List (Int × Int)} (hc : coords.Nodup) {dance : List ((Grp × Grp) × (Grp × Grp))} {anc : List Grp}
    (h1 : ∀ s ∈ dance, slotOk s = true)
    (h2 : dance.Pairwise fun s s' => ∀ g ∈ [s.1, s.2], ∀ g' ∈ [s'.1, s'.2], g ≠ g')
    (h3 : ∀ s ∈ dance, ∀ g ∈ [s.1, s.2], g.1 ∈ anc ∨ g.2 ∈ anc)
    (h4 : ∀ a ∈ anc, a ∈ [.X1, .X2, .Z1, .Z2] ∧ ∀ d ∈ [Grp.D1, .D2, .D3, .D4], ∃ s ∈ dance, ∃ g ∈ [s.1, s.2], g = (a, d) ∨ g = (d, a))
    (h5 : anc.Nodup) :
    ((dance.flatMap (slotPairs coords)).map orient).Perm
      ((inGroups coords anc).flatMap fun a => (coords.filter (adjacent a)).map fun d => (a, d)) := by
  have hanc : (inGroups coords anc).Nodup := by
    unfold inGroups
    rw [List.nodup_flatMap]
    exact ⟨fun g _ => group_nodup hc g, h5.imp fun {a b} hab q hq hq' => group_disjoint hab hq hq'⟩
  have hodd : ∀ {p : Int × Int} {g : Grp}, g ∈ anc → p ∈ group coords g → p.1 % 2 = 1 ∧ p.2 % 2 = 1 := by
    intro p g hg hp
    have hs := (mem_group.1 hp).2
    have := (h4 g hg).1
    simp only [List.mem_cons, List.not_mem_nil, or_false] at this
    rcases this with rfl | rfl | rfl | rfl <;> simp only [site, Option.some.injEq, Prod.mk.injEq] at hs <;> omega
  have horient : ∀ {p q : Int × Int}, adjacent p q = true → p.1 % 2 = 1 → orient (p, q) = (p, q) ∧ orient (q, p) = (p, q) := by
    intro p q ha hp
    rw [adjacent_iff] at ha
    unfold orient
    rw [if_pos hp, if_neg (by show ¬ q.1 % 2 = 1; omega)]
    exact ⟨rfl, rfl⟩
  have hadj : ∀ {p q : Int × Int}, adjacent p q = true → adjacent q p = true := by
    intro p q h
    rw [adjacent_iff] at h ⊢
    omega
  have hmem : ∀ {e : (Int × Int) × (Int × Int)}, e ∈ dance.flatMap (slotPairs coords) → adjacent e.1 e.2 = true ∧
      ∃ s ∈ dance, ∃ g ∈ [s.1, s.2], e.1 ∈ group coords g.1 ∧ e.2 ∈ group coords g.2 := by
    intro e he
    rw [List.mem_flatMap] at he
    obtain ⟨s, hs, he⟩ := he
    rw [mem_slotPairs hc (h1 s hs)] at he
    refine ⟨he.1, s, hs, ?_⟩
    rcases he.2 with h | h
    · exact ⟨s.1, by simp, h⟩
    · exact ⟨s.2, by simp, h⟩
  rw [List.perm_ext_iff_of_nodup]
  · rintro ⟨a, d⟩
    simp only [List.mem_map, List.mem_flatMap (l := inGroups coords anc), List.mem_filter, Prod.mk.injEq]
    constructor
    · rintro ⟨e, he, ho⟩
      obtain ⟨ha, s, hs, g, hg, hg1, hg2⟩ := hmem he
      rcases h3 s hs g hg with h | h
      · have := (horient ha (hodd h hg1).1).1
        rw [show e = (e.1, e.2) from rfl] at ho
        rw [this] at ho
        obtain ⟨rfl, rfl⟩ := Prod.mk.inj ho
        exact ⟨e.1, List.mem_flatMap.2 ⟨_, h, hg1⟩, e.2, ⟨(mem_group.1 hg2).1, ha⟩, rfl, rfl⟩
      · have := (horient (hadj ha) (hodd h hg2).1).2
        rw [show e = (e.1, e.2) from rfl] at ho
        rw [this] at ho
        obtain ⟨rfl, rfl⟩ := Prod.mk.inj ho
        exact ⟨e.2, List.mem_flatMap.2 ⟨_, h, hg2⟩, e.1, ⟨(mem_group.1 hg1).1, hadj ha⟩, rfl, rfl⟩
    · rintro ⟨a', ha', d', ⟨hd', hadj'⟩, rfl, rfl⟩
      obtain ⟨g, hg, hag⟩ := List.mem_flatMap.1 ha'
      have ho := hodd hg hag
      have hd : ∃ h ∈ [Grp.D1, .D2, .D3, .D4], d' ∈ group coords h := by
        have hx := adjacent_iff.1 hadj'
        have e1 : d'.1 % 4 = 0 ∨ d'.1 % 4 = 2 := by omega
        have e2 : d'.2 % 4 = 0 ∨ d'.2 % 4 = 2 := by omega
        rcases e1 with e1 | e1 <;> rcases e2 with e2 | e2
        · exact ⟨.D1, by simp, mem_group.2 ⟨hd', by rw [e1, e2]; rfl⟩⟩
        · exact ⟨.D2, by simp, mem_group.2 ⟨hd', by rw [e1, e2]; rfl⟩⟩
        · exact ⟨.D3, by simp, mem_group.2 ⟨hd', by rw [e1, e2]; rfl⟩⟩
        · exact ⟨.D4, by simp, mem_group.2 ⟨hd', by rw [e1, e2]; rfl⟩⟩
      obtain ⟨h, hh, hdh⟩ := hd
      obtain ⟨s, hs, g', hg', hor⟩ := (h4 g hg).2 h hh
      have hor2 := horient hadj' ho.1
      rcases hor with rfl | rfl
      · refine ⟨(a', d'), List.mem_flatMap.2 ⟨s, hs, (mem_slotPairs hc (h1 s hs)).2 ⟨hadj', ?_⟩⟩, hor2.1⟩
        simp only [List.mem_cons, List.not_mem_nil, or_false] at hg'
        rcases hg' with h' | h'
        · exact Or.inl (by rw [← h']; exact ⟨hag, hdh⟩)
        · exact Or.inr (by rw [← h']; exact ⟨hag, hdh⟩)
      · refine ⟨(d', a'), List.mem_flatMap.2 ⟨s, hs, (mem_slotPairs hc (h1 s hs)).2 ⟨hadj hadj', ?_⟩⟩, hor2.2⟩
        simp only [List.mem_cons, List.not_mem_nil, or_false] at hg'
        rcases hg' with h' | h'
        · exact Or.inl (by rw [← h']; exact ⟨hdh, hag⟩)
        · exact Or.inr (by rw [← h']; exact ⟨hdh, hag⟩)
  · have hn : (dance.flatMap (slotPairs coords)).Nodup := by
      rw [List.nodup_flatMap]
      refine ⟨fun s hs => slotPairs_nodup hc (h1 s hs), ?_⟩
      refine (List.Pairwise.and_mem.1 h2).imp fun {s s'} hss e he he' => ?_
      rw [mem_slotPairs hc (h1 _ hss.1)] at he
      rw [mem_slotPairs hc (h1 _ hss.2.1)] at he'
      have hx : ∃ g ∈ [s.1, s.2], e.1 ∈ group coords g.1 ∧ e.2 ∈ group coords g.2 := by
        rcases he.2 with h | h
        · exact ⟨s.1, by simp, h⟩
        · exact ⟨s.2, by simp, h⟩
      have hx' : ∃ g ∈ [s'.1, s'.2], e.1 ∈ group coords g.1 ∧ e.2 ∈ group coords g.2 := by
        rcases he'.2 with h | h
        · exact ⟨s'.1, by simp, h⟩
        · exact ⟨s'.2, by simp, h⟩
      obtain ⟨g, hg, a1, a2⟩ := hx
      obtain ⟨g', hg', b1, b2⟩ := hx'
      refine hss.2.2 g hg g' hg' (Prod.ext ?_ ?_)
      · by_contra hne; exact group_disjoint hne a1 b1
      · by_contra hne; exact group_disjoint hne a2 b2
    refine List.Nodup.map_on ?_ hn
    intro e he e' he' ho
    obtain ⟨ha, s, hs, g, hg, hg1, hg2⟩ := hmem he
    obtain ⟨ha', s', hs', g', hg', hg1', hg2'⟩ := hmem he'
    have hpart : ∀ {s g}, s ∈ dance → g ∈ [s.1, s.2] → partners g.1 g.2 = true := by
      intro s g hs hg
      have := h1 s hs
      simp only [slotOk, Bool.and_eq_true] at this
      simp only [List.mem_cons, List.not_mem_nil, or_false] at hg
      rcases hg with rfl | rfl
      · exact this.1.1
      · exact this.1.2
    have hno : e ≠ (e'.2, e'.1) := by
      intro h
      rw [h] at hg1 hg2
      have e1 : g.1 = g'.2 := by by_contra hne; exact group_disjoint hne hg1 hg2'
      have e2 : g.2 = g'.1 := by by_contra hne; exact group_disjoint hne hg2 hg1'
      have p1 := hpart hs hg
      have p2 := hpart hs' hg'
      rw [e1, e2] at p1
      exact partners_asymm p1 p2
    unfold orient at ho
    by_cases hss : e.1.1 % 2 = 1
    · by_cases hss' : e'.1.1 % 2 = 1
      · rwa [if_pos hss, if_pos hss'] at ho
      · rw [if_pos hss, if_neg hss'] at ho
        exact absurd ho hno
    · by_cases hss' : e'.1.1 % 2 = 1
      · rw [if_neg hss, if_pos hss'] at ho
        exact absurd (by rw [← ho]) hno
      · rw [if_neg hss, if_neg hss'] at ho
        exact Prod.ext (Prod.mk.inj ho).2 (Prod.mk.inj ho).1
  · rw [List.nodup_flatMap]
    refine ⟨fun a _ => (hc.filter _).map fun x y h => by simpa using h, hanc.imp fun {a b} hab e he he' => ?_⟩
    rw [List.mem_map] at he he'
    obtain ⟨_, _, rfl⟩ := he
    obtain ⟨_, _, h⟩ := he'
    exact hab (Prod.mk.inj h).1.symm

/-- **C67**: the four time slots of the X stabilizers contain, for each X ancilla and each qubit adjacent to it, exactly one CZ gate, and no
other gates. -/
theorem c67_x_pairs {coords : List (Int × Int)} (hc : coords.Nodup) : ((xDance.flatMap (slotPairs coords)).map orient).Perm
    ((inGroups coords [.X1, .X2]).flatMap fun a => (coords.filter (adjacent a)).map fun d => (a, d)) :=
  schedule_perm hc (by decide) (by decide) (by decide) (by decide) (by decide)

/-- **C67**: the same for the Z stabilizers. -/
theorem c67_z_pairs {coords : List (Int × Int)} (hc : coords.Nodup) : ((zDance.flatMap (slotPairs coords)).map orient).Perm
    ((inGroups coords [.Z1, .Z2]).flatMap fun a => (coords.filter (adjacent a)).map fun d => (a, d)) :=
  schedule_perm hc (by decide) (by decide) (by decide) (by decide) (by decide)

/-- The coordinates of the demo are different. -/
theorem demoCoords_nodup : demoCoords.Nodup := by decide

/-- In the demo the X ancilla (1, 1) has four gates. -/
example : ((1, 1), (2, 0)) ∈ (xDance.flatMap (slotPairs demoCoords)).map orient ∧
    ((xDance.flatMap (slotPairs demoCoords)).map orient).countP (fun e => e.1 = (1, 1)) = 4 := by decide

end Qec

end Verif
