import Verif.Props.CodeState
/-!
# C68: the code of the surface code demo has distance 3

The coordinates are finite data of the program (demo/QEC/surface_code.py:39-42), so the combinatorics is checked by evaluation in the kernel; the
statements are about all states and all errors.
-/

namespace Verif

namespace Qec

open Function Oper

/-- The data qubits around an ancilla. -/
def around (a : Int × Int) : List (Int × Int) := demoCoords.filter (adjacent a)

/-- The state is in the code: all X and Z stabilizers are 1. -/
def InCode (enc : Int × Int → Int) (Φ : Amp) : Prop :=
  (∀ a ∈ inGroups demoCoords [.X1, .X2], xproj 0 ((around a).map enc) Φ = Φ) ∧ ∀ b ∈ inGroups demoCoords [.Z1, .Z2], zproj 0 ((around b).map enc) Φ = Φ

/-- The error that applies X to the qubits of `E`, then Z to those of `F`. -/
noncomputable def pauliError (E F : List Int) (Φ : Amp) : Amp := fun z => sgn (F.map z).sum * Φ (flips E z)

theorem EvenOn.of_zproj {M : List Int} {Φ : Amp} (h : Qec.zproj 0 M Φ = Φ) : EvenOn M Φ := by
  intro z hz
  have := congrFun h z
  rw [zproj_eq, zero_add] at this
  by_contra hne
  rw [if_neg hne] at this
  exact hz this.symm

theorem flip_of_xproj {N : List Int} {Φ : Amp} (h : xproj 0 N Φ = Φ) (z : Int → ZMod 2) : Φ (flips N z) = Φ z := by
  have := congrFun h z
  unfold xproj sgn at this
  rw [if_pos rfl] at this
  linear_combination 2 * this

theorem flips_append (N N' : List Int) (z : Int → ZMod 2) : flips (N ++ N') z = flips N (flips N' z) := by
  funext q; unfold flips; rw [List.count_append]; push_cast; ring

/-- Two lists with the same parities flip alike. -/
theorem flips_congr {enc : Int × Int → Int} (he : Function.Injective enc) {E N : List (Int × Int)} (h : ∀ d, (E.count d + N.count d) % 2 = 0) (z : Int → ZMod 2) :
    flips (E.map enc) z = flips (N.map enc) z := by
  funext q
  unfold flips
  congr 1
  by_cases hq : ∃ d, enc d = q
  · obtain ⟨d, rfl⟩ := hq
    rw [List.count_map_of_injective _ enc he, List.count_map_of_injective _ enc he, ZMod.natCast_eq_natCast_iff']
    have := h d
    omega
  · rw [List.count_eq_zero_of_not_mem, List.count_eq_zero_of_not_mem]
    · exact fun h => hq (by obtain ⟨d, -, e⟩ := List.mem_map.1 h; exact ⟨d, e⟩)
    · exact fun h => hq (by obtain ⟨d, -, e⟩ := List.mem_map.1 h; exact ⟨d, e⟩)

/-- A sum over a list depends only on the parities. -/
theorem sum_parity (z : Int × Int → ZMod 2) (E : List (Int × Int)) {D : Finset (Int × Int)} (hE : ∀ d ∈ E, d ∈ D) :
    (E.map z).sum = ∑ d ∈ D, (E.count d : ZMod 2) * z d := by
  induction E with
  | nil => simp
  | cons e E ih =>
    rw [List.map_cons, List.sum_cons, ih fun d hd => hE d (List.mem_cons_of_mem _ hd)]
    simp only [List.count_cons, beq_iff_eq, Nat.cast_add, add_mul, Finset.sum_add_distrib]
    rw [add_comm]
    congr 1
    rw [Finset.sum_eq_single e (fun d _ hd => by simp [Ne.symm hd]) (fun h => absurd (hE e (by simp)) h)]
    simp

theorem sum_congr_parity {E N : List (Int × Int)} (h : ∀ d, (E.count d + N.count d) % 2 = 0) (z : Int × Int → ZMod 2) : (E.map z).sum = (N.map z).sum := by
  rw [sum_parity z E (D := (E ++ N).toFinset) (fun d hd => by simp [hd]), sum_parity z N (D := (E ++ N).toFinset) (fun d hd => by simp [hd])]
  refine Finset.sum_congr rfl fun d _ => ?_
  congr 1
  rw [ZMod.natCast_eq_natCast_iff']
  have := h d
  omega

theorem count_swap (A F : List (Int × Int)) : (A.map fun d => F.count d).sum = (F.map fun d => A.count d).sum := by
  induction A with
  | nil => simp
  | cons x A ih =>
    rw [List.map_cons, List.sum_cons, ih]
    clear ih
    induction F with
    | nil => simp
    | cons f F ih =>
      simp only [List.map_cons, List.sum_cons, List.count_cons, beq_iff_eq] at ih ⊢
      by_cases h : x = f
      · subst h; simp only [if_true]; omega
      · rw [if_neg h, if_neg (Ne.symm h)]; omega

/-- The check of the code: an error that no stabilizer of the groups `gs` sees is a product of stabilizers of the groups `hs`. -/
def Generated (gs hs : List Grp) (E : List (Int × Int)) : Prop :=
  (∀ b ∈ inGroups demoCoords gs, ((around b).map fun d => E.count d).sum % 2 = 0) →
    ∃ S ∈ (inGroups demoCoords hs).sublists, ∀ d ∈ demoCoords, (E.count d + (S.flatMap around).count d) % 2 = 0

instance (gs hs : List Grp) (E : List (Int × Int)) : Decidable (Generated gs hs E) := by unfold Generated; infer_instance

/-- The data qubits. -/
def dataQubits : List (Int × Int) := inGroups demoCoords [.D1, .D2, .D3, .D4]

theorem generated_x : Generated [.Z1, .Z2] [.X1, .X2] [] ∧ (∀ d ∈ dataQubits, Generated [.Z1, .Z2] [.X1, .X2] [d]) ∧
    ∀ d ∈ dataQubits, ∀ d' ∈ dataQubits, Generated [.Z1, .Z2] [.X1, .X2] [d, d'] := by decide +kernel

theorem generated_z : Generated [.X1, .X2] [.Z1, .Z2] [] ∧ (∀ d ∈ dataQubits, Generated [.X1, .X2] [.Z1, .Z2] [d]) ∧
    ∀ d ∈ dataQubits, ∀ d' ∈ dataQubits, Generated [.X1, .X2] [.Z1, .Z2] [d, d'] := by decide +kernel

theorem generated_of {gs hs : List Grp} (h : Generated gs hs [] ∧ (∀ d ∈ dataQubits, Generated gs hs [d]) ∧ ∀ d ∈ dataQubits, ∀ d' ∈ dataQubits, Generated gs hs [d, d'])
    {E : List (Int × Int)} (hE : ∀ d ∈ E, d ∈ dataQubits) (hl : E.length ≤ 2) : Generated gs hs E := by
  match E, hl with
  | [], _ => exact h.1
  | [d], _ => exact h.2.1 d (hE d (by simp))
  | [d, d'], _ => exact h.2.2 d (hE d (by simp)) d' (hE d' (by simp))
  | _ :: _ :: _ :: _, hl => simp at hl

theorem parity_all {E N : List (Int × Int)} (hE : ∀ d ∈ E, d ∈ dataQubits) (hN : ∀ d ∈ N, d ∈ demoCoords) (h : ∀ d ∈ demoCoords, (E.count d + N.count d) % 2 = 0)
    (d : Int × Int) : (E.count d + N.count d) % 2 = 0 := by
  by_cases hd : d ∈ demoCoords
  · exact h d hd
  · rw [List.count_eq_zero_of_not_mem fun h => hd (group_sub (hE d h)), List.count_eq_zero_of_not_mem fun h => hd (hN d h)]

theorem around_sub {S : List (Int × Int)} {d : Int × Int} (h : d ∈ S.flatMap around) : d ∈ demoCoords := by
  obtain ⟨a, -, hd⟩ := List.mem_flatMap.1 h
  exact (List.mem_filter.1 hd).1

/-- **C68**: the code has distance 3. An error of X on at most two data qubits and Z on at most two data qubits that no stabilizer detects does not
change the state. -/
theorem c68_distance {enc : Int × Int → Int} (he : Function.Injective enc) {Φ : Amp} (hΦ : InCode enc Φ) {E F : List (Int × Int)}
    (hE : ∀ d ∈ E, d ∈ dataQubits) (hF : ∀ d ∈ F, d ∈ dataQubits) (hEl : E.length ≤ 2) (hFl : F.length ≤ 2)
    (hΨ : InCode enc (pauliError (E.map enc) (F.map enc) Φ)) : pauliError (E.map enc) (F.map enc) Φ = Φ := by
  by_cases h0 : Φ = fun _ => 0
  · subst h0; funext z; simp [pauliError]
  obtain ⟨w, hw⟩ : ∃ w, Φ w ≠ 0 := by by_contra h; push Not at h; exact h0 (funext h)
  have hs : ∀ x : ZMod 2, sgn x ≠ 0 := by intro x; unfold sgn; split <;> norm_num
  -- the X part is a product of X stabilizers
  have hx : ∀ z, Φ (flips (E.map enc) z) = Φ z := by
    obtain ⟨S, hS, hp⟩ := generated_of generated_x hE hEl fun b hb => by
      have h1 := EvenOn.of_zproj (hΦ.2 b hb) w hw
      have h2 := EvenOn.of_zproj (hΨ.2 b hb) (flips (E.map enc) w) (by
        unfold pauliError; rw [flips_twice]; exact mul_ne_zero (hs _) hw)
      rw [sum_flips, h1, zero_add, overlap he, ZMod.natCast_eq_zero_iff] at h2
      omega
    rw [List.mem_sublists] at hS
    intro z
    rw [flips_congr he (parity_all hE (fun d => around_sub) hp)]
    clear hp
    have : ∀ S : List (Int × Int), (∀ a ∈ S, a ∈ inGroups demoCoords [.X1, .X2]) → ∀ z, Φ (flips ((S.flatMap around).map enc) z) = Φ z := by
      intro S hS
      induction S with
      | nil => intro z; congr 1; funext q; simp [flips]
      | cons a S ih =>
        intro z
        rw [List.flatMap_cons, List.map_append, flips_append, flip_of_xproj (hΦ.1 a (hS a (by simp)))]
        exact ih (fun a ha => hS a (List.mem_cons_of_mem _ ha)) z
    exact this S (fun a ha => hS.subset ha) z
  have hΨ' : pauliError (E.map enc) (F.map enc) Φ = fun z => sgn ((F.map enc).map z).sum * Φ z := by funext z; unfold pauliError; rw [hx]
  rw [hΨ'] at hΨ ⊢
  -- the Z part is a product of Z stabilizers
  obtain ⟨S, hS, hp⟩ := generated_of generated_z hF hFl fun a ha => by
    have h1 := flip_of_xproj (hΨ.1 a ha) w
    have h2 := flip_of_xproj (hΦ.1 a ha) w
    beta_reduce at h1
    rw [h2, sum_flips, sgn_add] at h1
    have h3 : sgn ((((F.map enc).map fun q => ((around a).map enc).count q).sum : Nat) : ZMod 2) = 1 := by
      have h4 := mul_right_cancel₀ hw h1
      exact mul_left_cancel₀ (hs _) (h4.trans (mul_one _).symm)
    rw [overlap he] at h3
    have hsym : ((around a).map fun d => F.count d).sum = (F.map fun d => (around a).count d).sum := count_swap _ _
    rw [hsym]
    by_contra hne
    have h5 : (((F.map fun d => (around a).count d).sum : Nat) : ZMod 2) = 1 := by
      rcases zmod2 (((F.map fun d => (around a).count d).sum : Nat) : ZMod 2) with h | h
      · rw [ZMod.natCast_eq_zero_iff] at h; omega
      · exact h
    rw [h5] at h3
    unfold sgn at h3
    rw [if_neg (by decide)] at h3
    norm_num at h3
  rw [List.mem_sublists] at hS
  funext z
  by_cases hz : Φ z = 0
  · rw [hz, mul_zero]
  have : ((F.map enc).map z).sum = 0 := by
    rw [List.map_map, sum_congr_parity (parity_all hF (fun d => around_sub) hp)]
    have : ∀ S : List (Int × Int), (∀ b ∈ S, b ∈ inGroups demoCoords [.Z1, .Z2]) → ((S.flatMap around).map (z ∘ enc)).sum = 0 := by
      intro S hS
      induction S with
      | nil => rfl
      | cons b S ih =>
        have hb := EvenOn.of_zproj (hΦ.2 b (hS b (by simp))) z hz
        rw [List.map_map] at hb
        rw [List.flatMap_cons, List.map_append, List.sum_append, hb, zero_add]
        exact ih fun b hb => hS b (List.mem_cons_of_mem _ hb)
    exact this S fun b hb => hS.subset hb
  rw [this]; unfold sgn; rw [if_pos rfl, one_mul]

/-- **C68**: three qubits are enough for an error that is not detected and changes the state: the logical X. -/
theorem c68_distance_sharp {enc : Int × Int → Int} (he : Function.Injective enc) : ∃ E : List (Int × Int), E.length = 3 ∧ (∀ d ∈ E, d ∈ dataQubits) ∧
    ∃ Φ : Amp, InCode enc Φ ∧ InCode enc (pauliError (E.map enc) [] Φ) ∧ pauliError (E.map enc) [] Φ ≠ Φ := by
  refine ⟨[(0, 0), (2, 0), (4, 0)], rfl, by decide +kernel, codeZero enc demoCoords, ⟨fun a ha => (c68_x he ha).1, fun b hb => (c68_z he hb).1⟩, ?_⟩
  have h : pauliError ([((0 : Int), (0 : Int)), (2, 0), (4, 0)].map enc) [] (codeZero enc demoCoords) = codeOne enc demoCoords := by
    funext z
    unfold pauliError sgn
    rw [List.map_nil, List.sum_nil, if_pos rfl, one_mul]; rfl
  rw [h]
  refine ⟨⟨fun a ha => (c68_x he ha).2, fun b hb => (c68_z he hb).2⟩, fun e => ?_⟩
  have h1 := (c68_nonzero enc demoCoords).1
  have h2 := c68_orthogonal he fun _ => 0
  rw [e] at h2
  exact h1 (mul_self_eq_zero.1 h2)

/-- The hypotheses are met: a product of two stabilizers, X on two qubits. -/
example : InCode pairUp (codeZero pairUp demoCoords) ∧ (∀ d ∈ [((0 : Int), (2 : Int)), (0, 4)], d ∈ dataQubits) ∧
    InCode pairUp (pauliError ([((0 : Int), (2 : Int)), (0, 4)].map pairUp) [] (codeZero pairUp demoCoords)) := by
  refine ⟨⟨fun a ha => (c68_x pairUp_injective ha).1, fun b hb => (c68_z pairUp_injective hb).1⟩, by decide +kernel, ?_⟩
  have h : pauliError ([((0 : Int), (2 : Int)), (0, 4)].map pairUp) [] (codeZero pairUp demoCoords) = codeZero pairUp demoCoords := by
    funext z
    have := flip_of_xproj (c68_x pairUp_injective (coords := demoCoords) (a := (-1, 3)) (by decide +kernel)).1 z
    have e : demoCoords.filter (adjacent (-1, 3)) = [((0 : Int), (2 : Int)), (0, 4)] := by decide +kernel
    rw [e] at this
    unfold pauliError sgn
    rw [List.map_nil, List.sum_nil, if_pos rfl, one_mul, this]
  rw [h]
  exact ⟨fun a ha => (c68_x pairUp_injective ha).1, fun b hb => (c68_z pairUp_injective hb).1⟩

end Qec

end Verif
