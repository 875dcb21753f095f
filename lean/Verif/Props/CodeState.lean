import Verif.Props.StabilizerCirc
/-!
# C68: the initial state of the surface code demo and the corrections at its end

The spec is the stabilizer formalism: `xproj`, `zproj` (Lemmas/Syndrome.lean) are the projectors of products of Pauli operators.
-/

namespace Verif

namespace Qec

open Function

/-! ## Projectors -/

/-- The state has only amplitudes with even parity on `M`: the product of the Z operators of `M` is 1. -/
def EvenOn (M : List Int) (Φ : Amp) : Prop := ∀ z, Φ z ≠ 0 → (M.map z).sum = 0

theorem EvenOn.zproj {M : List Int} {Φ : Amp} (h : EvenOn M Φ) : zproj 0 M Φ = Φ := by
  funext z
  rw [zproj_eq, zero_add]
  by_cases hz : Φ z = 0
  · rw [hz, ite_self]
  · rw [if_pos (h z hz)]

theorem sum_flips (N M : List Int) (z : Int → ZMod 2) : (M.map (flips N z)).sum = (M.map z).sum + ((M.map fun q => N.count q).sum : Nat) := by
  induction M with
  | nil => simp
  | cons q M ih =>
    simp only [List.map_cons, List.sum_cons, ih]
    unfold flips
    push_cast
    ring

theorem EvenOn.xproj {M N : List Int} {Φ : Amp} (h : EvenOn M Φ) (hN : (M.map fun q => N.count q).sum % 2 = 0) (s : ZMod 2) : EvenOn M (xproj s N Φ) := by
  intro z hz
  by_contra hne
  have h1 : Φ z = 0 := by by_contra h1; exact hne (h z h1)
  have h2 : Φ (flips N z) = 0 := by
    by_contra h2
    have := h _ h2
    rw [sum_flips] at this
    have hc : (((M.map fun q => N.count q).sum : Nat) : ZMod 2) = 0 := by
      rw [ZMod.natCast_eq_zero_iff]; omega
    rw [hc, add_zero] at this
    exact hne this
  apply hz
  unfold Qec.xproj
  rw [h1, h2]; simp

theorem EvenOn.zeroed {M : List Int} {Φ : Amp} (h : EvenOn M Φ) (l : List Int) : EvenOn M (zeroed l Φ) := by
  intro z hz
  unfold Qec.zeroed at hz
  split at hz
  · exact h z hz
  · exact absurd rfl hz

theorem flips_flips (N N' : List Int) (z : Int → ZMod 2) : flips N (flips N' z) = flips N' (flips N z) := by
  funext q; unfold flips; ring

theorem flips_twice (N : List Int) (z : Int → ZMod 2) : flips N (flips N z) = z := by
  funext q
  unfold flips
  have : ∀ x : ZMod 2, x + x = 0 := by decide
  rw [add_assoc, this, add_zero]

theorem xproj_comm (s s' : ZMod 2) (N N' : List Int) (Φ : Amp) : xproj s N (xproj s' N' Φ) = xproj s' N' (xproj s N Φ) := by
  funext z; unfold xproj; rw [flips_flips]; ring

theorem xproj_idem (s : ZMod 2) (N : List Int) (Φ : Amp) : xproj s N (xproj s N Φ) = xproj s N Φ := by
  funext z
  unfold xproj
  rw [flips_twice]
  have : sgn s * sgn s = 1 := by unfold sgn; split <;> ring
  linear_combination (1 / 4 * Φ z) * this

theorem xproj_fold {β : Type} (s : β → ZMod 2) (N : β → List Int) (l : List β) {b : β} (hb : b ∈ l) : ∀ Φ : Amp,
    xproj (s b) (N b) (l.foldl (fun Φ a => xproj (s a) (N a) Φ) Φ) = l.foldl (fun Φ a => xproj (s a) (N a) Φ) Φ := by
  have hc : ∀ (l : List β) (Φ : Amp), xproj (s b) (N b) (l.foldl (fun Φ a => xproj (s a) (N a) Φ) Φ) =
      l.foldl (fun Φ a => xproj (s a) (N a) Φ) (xproj (s b) (N b) Φ) := by
    intro l
    induction l with
    | nil => intro Φ; rfl
    | cons a l ih => intro Φ; rw [List.foldl_cons, List.foldl_cons, ih, xproj_comm]
  induction l with
  | nil => simp at hb
  | cons a l ih =>
    intro Φ
    rw [List.foldl_cons]
    rcases List.mem_cons.1 hb with rfl | hb
    · rw [hc, xproj_idem]
    · exact ih hb _

theorem xproj_zeroed {N l : List Int} (h : ∀ d ∈ N, d ∉ l) (s : ZMod 2) (Φ : Amp) : xproj s N (zeroed l Φ) = zeroed l (xproj s N Φ) := by
  funext z
  unfold xproj zeroed
  have : (∀ a ∈ l, flips N z a = 0) ↔ ∀ a ∈ l, z a = 0 := forall₂_congr fun a ha => by
    unfold flips
    rw [List.count_eq_zero.2 fun hN => h a hN ha, Nat.cast_zero, add_zero]
  simp only [this]
  split <;> simp

theorem EvenOn.fold {β : Type} {M : List Int} (s : β → ZMod 2) (N : β → List Int) {l : List β} (h : ∀ a ∈ l, (M.map fun q => (N a).count q).sum % 2 = 0) :
    ∀ {Φ : Amp}, EvenOn M Φ → EvenOn M (l.foldl (fun Φ a => Qec.xproj (s a) (N a) Φ) Φ) := by
  induction l with
  | nil => intro Φ hΦ; exact hΦ
  | cons a l ih =>
    intro Φ hΦ
    rw [List.foldl_cons]
    exact ih (fun a ha => h a (List.mem_cons_of_mem _ ha)) (hΦ.xproj (h a List.mem_cons_self) _)

end Qec

namespace Oper

set_option linter.unusedSimpArgs false

open Circ Qec Function

variable {ctr : TVal ℂ → Except Err (Arr ℂ)}

/-! ## The circuit -/

/-- The operations of `initial_state`. -/
noncomputable def initOps (enc : Int × Int → Int) (coords : List (Int × Int)) (coord : Int × Int) : List (Oper ℂ × List Int) :=
  coords.map (fun q => (zeroState, [enc q])) ++ xOps enc coords (fun _ => 0) ++
    [(plusState, [enc coord]), (cnotOp, [enc coord, enc (0, 0)]), (cnotOp, [enc coord, enc (2, 0)]), (cnotOp, [enc coord, enc (4, 0)])]

theorem zeroLoop_eq (sh : ShapeFn (Oper ℂ)) (enc : Int × Int → Int) : ∀ (l : List (Int × Int)) (c : Circ (Oper ℂ)), zeroLoop sh enc l c =
    (l.map fun q => (zeroState, [enc q])).foldlM (fun c x => append sh c x.1 x.2) c := by
  intro l
  induction l with
  | nil => intro c; rfl
  | cons q l ih =>
    intro c
    simp only [zeroLoop, List.map_cons, List.foldlM_cons]
    cases h1 : append sh c zeroState [enc q] with
    | error e => rfl
    | ok c1 => exact ih c1

theorem initialState_eq (sh : ShapeFn (Oper ℂ)) (enc : Int × Int → Int) (coords : List (Int × Int)) (coord : Int × Int) :
    initialState sh enc coords coord = (initOps enc coords coord).foldlM (fun c x => append sh c x.1 x.2) [] := by
  unfold initialState initOps
  rw [List.foldlM_append, List.foldlM_append, zeroLoop_eq]
  cases h1 : (coords.map fun q => (zeroState, [enc q])).foldlM (fun c (x : Oper ℂ × List Int) => append sh c x.1 x.2) [] with
  | error e => rfl
  | ok c1 =>
    show _ = (xStabMeas sh enc coords (fun _ => 0) c1 >>= _)
    dsimp only
    cases h2 : xStabMeas sh enc coords (fun _ => 0) c1 with
    | error e => rfl
    | ok c2 =>
      simp only [List.foldlM_cons, List.foldlM_nil]
      show _ = (append sh c2 plusState [enc coord] >>= _)
      cases h3 : append sh c2 plusState [enc coord] with
      | error e => rfl
      | ok c3 =>
        show _ = (append sh c3 cnotOp [enc coord, enc (0, 0)] >>= _)
        dsimp only
        cases h4 : append sh c3 cnotOp [enc coord, enc (0, 0)] with
        | error e => rfl
        | ok c4 =>
          show _ = (append sh c4 cnotOp [enc coord, enc (2, 0)] >>= _)
          dsimp only
          cases h5 : append sh c4 cnotOp [enc coord, enc (2, 0)] with
          | error e => rfl
          | ok c5 =>
            show _ = (append sh c5 cnotOp [enc coord, enc (4, 0)] >>= _)
            dsimp only
            cases h6 : append sh c5 cnotOp [enc coord, enc (4, 0)] <;> rfl

theorem plusState_built (n : Nat) : Built ctr (n + 1) false plusState := by
  unfold plusState
  rw [Built]
  refine ⟨⟨by decide, rfl, ?_, fun b k h => (by cases h), fun h => by cases h⟩, fun h => by cases h⟩
  rw [TVal.Whole]; trivial

theorem plus_act (n : Nat) (q : Int) (Φ : Amp) (w : Int → Nat) :
    Act.apply ⟨matrix ctr (n + 1) plusState, inQubits (shapeD (shapes ctr (n + 1)) plusState) [q],
      outQubits (shapeD (shapes ctr (n + 1)) plusState) [q]⟩ (lift Φ) w = lift (fun z => ((1 / Real.sqrt 2 : ℝ) : ℂ) * Φ z) w := by
  have h1 : inQubits (shapeD (shapes ctr (n + 1)) plusState) [q] = [] := by
    show inQubits [[.o]] [q] = []
    simp [inQubits, portsAt, Letter.ports]
  unfold Act.apply
  rw [h1, sumOver_nil]
  show (TVal.tot (.ten (some _)) _ : ℂ) * lift Φ w = _
  rw [TVal.tot]
  rfl

theorem cnot_act (n : Nat) {a d : Int} (hne : a ≠ d) (Φ : Amp) {w : Int → Nat} (hw : Good w) :
    Act.apply ⟨matrix ctr (n + 1) cnotOp, inQubits (shapeD (shapes ctr (n + 1)) cnotOp) [a, d],
      outQubits (shapeD (shapes ctr (n + 1)) cnotOp) [a, d]⟩ (lift Φ) w = lift (cnop (d, a) Φ) w := by
  have h1 : inQubits (shapeD (shapes ctr (n + 1)) cnotOp) [a, d] = [a, d] := by
    show inQubits [[.c], [.i, .o]] [a, d] = _
    simp [inQubits, portsAt, Letter.ports, hne, hne.symm]
  have h2 : outQubits (shapeD (shapes ctr (n + 1)) cnotOp) [a, d] = [a, d] := by
    show outQubits [[.c], [.i, .o]] [a, d] = _
    simp [outQubits, portsAt, Letter.ports, hne, hne.symm]
  unfold Act.apply
  rw [h1, h2, sumOver_cons]
  simp only [sumOver_cons, sumOver_nil, bits, Finset.sum_range_succ, Finset.sum_range_zero, zero_add]
  have e : ∀ x y, x < 2 → y < 2 → matrix ctr (n + 1) cnotOp ([a, d].map w ++ [a, d].map (update (update w a x) d y)) =
      if w a = x ∧ w d = (x + y) % 2 then 1 else 0 := by
    intro x y hx hy
    simp only [List.map_cons, List.map_nil, List.cons_append, List.nil_append, update_self, update_of_ne hne]
    exact cnot_entry n (hw a) (hw d) hx hy
  rw [e 0 0 (by omega) (by omega), e 0 1 (by omega) (by omega), e 1 0 (by omega) (by omega), e 1 1 (by omega) (by omega)]
  have e11 : (1 : ZMod 2) + 1 = 0 := by decide
  have hl : ∀ b : Nat, lift Φ (update (update w a (w a)) d b) = Φ (update (fun q => ((w q : Nat) : ZMod 2)) d (b : ZMod 2)) := by
    intro b
    rw [update_eq_self]
    unfold lift
    rw [cast_update]
  have hr : lift (cnop (d, a) Φ) w = Φ (update (fun q => ((w q : Nat) : ZMod 2)) d ((w d : ZMod 2) + (w a : ZMod 2))) := rfl
  rw [hr]
  have l0 := hl 0
  have l1 := hl 1
  rcases good_cases hw a with h | h <;> rcases good_cases hw d with h' | h' <;> rw [h] at l0 l1 <;> simp [h, h', l0, l1, e11]

theorem zeros_acts (n : Nat) (l : List Int) : ∀ (Φ : Amp) {w : Int → Nat}, Good w →
    evolve (acts ctr (n + 1) (l.map fun q => (zeroState, [q]))) (lift Φ) w = lift (zeroed l Φ) w := by
  induction l with
  | nil =>
    intro Φ w _
    have : zeroed [] Φ = Φ := by funext z; unfold zeroed; rw [if_pos (by simp)]
    rw [this]; rfl
  | cons q l ih =>
    intro Φ w hw
    have : zeroed (q :: l) Φ = zeroed l (fun z => if z q = 0 then Φ z else 0) := by
      funext z
      unfold zeroed
      simp only [List.mem_cons, forall_eq_or_imp]
      by_cases h1 : z q = 0 <;> by_cases h2 : ∀ a ∈ l, z a = 0 <;> simp [h1, h2]
    rw [this, ← ih _ hw]
    exact evolve_good (fun w hw => zero_act n q Φ hw) hw

/-- The X stabilizers measured on the state 0: the logical state 0 of the code (not normalised), ancillas in state 0. -/
noncomputable def codeZero (enc : Int × Int → Int) (coords : List (Int × Int)) : Amp :=
  zeroed ((inGroups coords [.X1, .X2]).map enc)
    ((inGroups coords [.X1, .X2]).foldl (fun Φ a => xproj 0 ((coords.filter (adjacent a)).map enc) Φ) (zeroed (coords.map enc) fun _ => 1))

theorem group_sub {coords : List (Int × Int)} {l : List Grp} {q : Int × Int} (h : q ∈ inGroups coords l) : q ∈ coords := by
  obtain ⟨g, _, hq⟩ := mem_inGroups.1 h
  exact (mem_group.1 hq).1

theorem init_evolve {enc : Int × Int → Int} (he : Function.Injective enc) {coords : List (Int × Int)} (hc : coords.Nodup) {coord : Int × Int}
    (h0 : coord ≠ (0, 0) ∧ coord ≠ (2, 0) ∧ coord ≠ (4, 0)) (n : Nat) {w : Int → Nat} (hw : Good w) (v : Int → Nat) :
    evolve (acts ctr (n + 1) (initOps enc coords coord)) (basisState [] v) w =
      lift (cnots [(enc (0, 0), enc coord), (enc (2, 0), enc coord), (enc (4, 0), enc coord)]
        fun z => ((1 / Real.sqrt 2 : ℝ) : ℂ) * codeZero enc coords z) w := by
  have ha : ∀ a b, acts ctr (n + 1) (a ++ b) = acts ctr (n + 1) a ++ acts ctr (n + 1) b := fun a b => List.map_append
  have e1 : ∀ w, Good w → evolve (acts ctr (n + 1) (coords.map (fun q => (zeroState, [enc q])) ++ xOps enc coords (fun _ => 0))) (basisState [] v) w =
      lift (codeZero enc coords) w := by
    intro w hw
    rw [ha, evolve_append]
    have hz : zeroed (coords.map enc) (fun _ => (1 : ℂ)) = zeroed ((inGroups coords [.X1, .X2]).map enc) (zeroed (coords.map enc) fun _ => 1) := by
      funext z
      unfold zeroed
      by_cases h : ∀ a ∈ coords.map enc, z a = 0
      · rw [if_pos h, if_pos]
        intro a ha
        obtain ⟨a, ha, rfl⟩ := List.mem_map.1 ha
        exact h _ (List.mem_map_of_mem (group_sub (by assumption)))
      · rw [if_neg h, ite_self]
    have hb : (basisState [] v : (Int → Nat) → ℂ) = lift fun _ => 1 := by funext w; simp [basisState, lift]
    have := c67_x (ctr := ctr) he hc (out := fun _ => 0) (fun _ => Nat.zero_lt_two) n (zeroed (coords.map enc) fun _ => 1) hw
    simp only [Nat.cast_zero] at this
    refine Eq.trans (evolve_good (fun w hw => ?_) hw) this
    rw [← hz, hb, ← zeros_acts (ctr := ctr) n (coords.map enc) _ hw, List.map_map]
    rfl
  unfold initOps
  rw [ha, evolve_append]
  simp only [acts, List.map_cons, List.map_nil, evolve_cons]
  have c1 : enc coord ≠ enc (0, 0) := fun h => h0.1 (he h)
  have c2 : enc coord ≠ enc (2, 0) := fun h => h0.2.1 (he h)
  have c3 : enc coord ≠ enc (4, 0) := fun h => h0.2.2 (he h)
  have step : ∀ {p : Act ℂ} {Ψ : (Int → Nat) → ℂ} {Φ Φ' : Amp}, (∀ w, Good w → Ψ w = lift Φ w) → (∀ w, Good w → p.apply (lift Φ) w = lift Φ' w) →
      ∀ w, Good w → p.apply Ψ w = lift Φ' w := by
    intro p Ψ Φ Φ' h1 h2 w hw
    rw [← h2 w hw]
    exact evolve_good (l := [p]) h1 hw
  refine step (step (step (step e1 fun w hw => plus_act n _ _ w) fun w hw => cnot_act n c1 _ hw) fun w hw => cnot_act n c2 _ hw) (fun w hw => cnot_act n c3 _ hw) w hw

/-! ## `tensor_pure` -/

theorem init_mem {enc : Int × Int → Int} {coords : List (Int × Int)} {coord : Int × Int} {x : Oper ℂ × List Int} (h : x ∈ initOps enc coords coord) :
    (∃ q, x = (zeroState, [q])) ∨ x ∈ xOps enc coords (fun _ => 0) ∨ x = (plusState, [enc coord]) ∨
      ∃ d ∈ [((0 : Int), (0 : Int)), (2, 0), (4, 0)], x = (cnotOp, [enc coord, enc d]) := by
  unfold initOps at h
  simp only [List.mem_append, List.mem_map, List.mem_cons, List.not_mem_nil, or_false] at h
  rcases h with (⟨q, _, rfl⟩ | h) | rfl | rfl | rfl | rfl
  · exact Or.inl ⟨_, rfl⟩
  · exact Or.inr (Or.inl h)
  · exact Or.inr (Or.inr (Or.inl rfl))
  · exact Or.inr (Or.inr (Or.inr ⟨_, by simp, rfl⟩))
  · exact Or.inr (Or.inr (Or.inr ⟨_, by simp, rfl⟩))
  · exact Or.inr (Or.inr (Or.inr ⟨_, by simp, rfl⟩))

/-- The qubits of the X measurements are in `coords`. -/
theorem xOps_sub {enc : Int × Int → Int} {coords : List (Int × Int)} {out : Int → Nat}
    {x : Oper ℂ × List Int} (h : x ∈ xOps enc coords out) : ∀ q ∈ x.2, q ∈ coords.map enc := by
  have hsub : ∀ {g : List Grp} {q}, q ∈ (inGroups coords g).map enc → q ∈ coords.map enc := by
    intro g q hq
    obtain ⟨a, ha, rfl⟩ := List.mem_map.1 hq
    exact List.mem_map_of_mem (group_sub ha)
  unfold xOps at h
  rcases mem_stabOps h with ⟨q, hq, rfl⟩ | ⟨e, hm, rfl⟩ | ⟨q, hq, rfl⟩ | ⟨q, hq, rfl⟩
  · simpa using hsub hq
  · obtain ⟨e, he1, rfl⟩ := List.mem_map.1 hm
    have he2 : e.1 ∈ coords ∧ e.2 ∈ coords := by
      obtain ⟨s, _, hs⟩ := List.mem_flatMap.1 he1
      have hcz : ∀ g g', e ∈ czGates (group coords g) (group coords g') → e.1 ∈ coords ∧ e.2 ∈ coords := by
        intro g g' h
        unfold czGates at h
        obtain ⟨q1, h1, h2⟩ := List.mem_flatMap.1 h
        cases hf : (group coords g').find? (adjacent q1) with
        | none => rw [hf] at h2; simp at h2
        | some q2 =>
          rw [hf] at h2
          simp only [List.mem_cons, List.not_mem_nil, or_false] at h2
          subst h2
          exact ⟨(mem_group.1 h1).1, (mem_group.1 (List.mem_of_find?_eq_some hf)).1⟩
      rcases List.mem_append.1 hs with h | h
      · exact hcz _ _ h
      · exact hcz _ _ h
    intro q hq
    simp only [List.mem_cons, List.not_mem_nil, or_false] at hq
    rcases hq with rfl | rfl
    · exact List.mem_map_of_mem he2.1
    · exact List.mem_map_of_mem he2.2
  · simpa using hsub hq
  · simpa using hsub hq

theorem wordOf_append (sh : ShapeFn (Oper ℂ)) (l l' : List (Oper ℂ × List Int)) (q : Int) : wordOf sh (l ++ l') q = wordOf sh l q ++ wordOf sh l' q :=
  List.flatMap_append

theorem word_zeros (n : Nat) (q : Int) : ∀ {l : List Int}, l.Nodup →
    wordOf (shapes ctr (n + 1)) (l.map fun q => (zeroState, [q])) q = if q ∈ l then [.out] else [] := by
  intro l
  induction l with
  | nil => intro _; rfl
  | cons p l ih =>
    intro h
    obtain ⟨h1, h2⟩ := List.nodup_cons.1 h
    have : wordOf (shapes ctr (n + 1)) ((p :: l).map fun q => (zeroState, [q])) q =
        portsAt [[.o]] [p] q ++ wordOf (shapes ctr (n + 1)) (l.map fun q => (zeroState, [q])) q := rfl
    rw [this, ih h2]
    by_cases hp : p = q
    · subst hp; simp [portsAt, Letter.ports, h1]
    · simp [portsAt, Letter.ports, hp, Ne.symm hp]

/-- The ends on each wire: a state, then in and out. -/
theorem init_word {enc : Int × Int → Int} (he : Function.Injective enc) {coords : List (Int × Int)} (hc : coords.Nodup) {coord : Int × Int}
    (h0 : coord ∉ coords) (hl : ∀ d ∈ [((0 : Int), (0 : Int)), (2, 0), (4, 0)], d ∈ coords) (n : Nat) (q : Int) :
    ∃ k, wordOf (shapes ctr (n + 1)) (initOps enc coords coord) q = if q ∈ (coord :: coords).map enc then .out :: through k else [] := by
  have hp : ((xDance.flatMap (slotPairs coords)).map orient).Perm (edges (inGroups coords [.X1, .X2]) coords) := c67_x_pairs hc
  have hE := (enc_edges he (l := [.X1, .X2]) (by decide) hp).2
  have hne : ∀ d ∈ [((0 : Int), (0 : Int)), (2, 0), (4, 0)], enc coord ≠ enc d := fun d hd h => h0 (he h ▸ hl d hd)
  have hX : Thru (shapes ctr (n + 1)) (xOps enc coords fun _ => 0) := thru_stabOps n hE _
  obtain ⟨k, h1, h2⟩ := hX q
  have hC : Thru (shapes ctr (n + 1)) [(cnotOp, [enc coord, enc (0, 0)]), (cnotOp, [enc coord, enc (2, 0)]), (cnotOp, [enc coord, enc (4, 0)])] :=
    ((thru_cnot n (hne _ (by simp))).append (thru_cnot n (hne _ (by simp)))).append (thru_cnot n (hne _ (by simp)))
  obtain ⟨j, h3, h4⟩ := hC q
  have hw : wordOf (shapes ctr (n + 1)) (initOps enc coords coord) q = (if q ∈ coords.map enc then [.out] else []) ++ through k ++
      (portsAt [[.o]] [enc coord] q ++ through j) := by
    unfold initOps
    rw [wordOf_append, wordOf_append, h1]
    have := word_zeros (ctr := ctr) n q (hc.map he)
    rw [List.map_map] at this
    refine congrArg₂ _ (congrArg₂ _ this rfl) ?_
    rw [← h3]; rfl
  have hk : q ∉ coords.map enc → k = 0 := by
    intro hq
    by_contra hk
    obtain ⟨x, hx, hqx⟩ := h2.1 (Nat.pos_of_ne_zero hk)
    exact hq (xOps_sub hx q hqx)
  refine ⟨k + j, ?_⟩
  rw [hw, List.map_cons]
  by_cases hq : q ∈ coords.map enc
  · have : enc coord ≠ q := by
      rintro rfl
      obtain ⟨d, hd, h⟩ := List.mem_map.1 hq
      exact h0 (he h ▸ hd)
    simp [portsAt, Letter.ports, this, hq, through_add]
  · rw [hk hq]
    by_cases hq' : enc coord = q
    · simp [portsAt, Letter.ports, hq', hq, through]
    · have hj : j = 0 := by
        by_contra hj
        obtain ⟨x, hx, hqx⟩ := h4.1 (Nat.pos_of_ne_zero hj)
        have hcase : ∃ d ∈ [((0 : Int), (0 : Int)), (2, 0), (4, 0)], x = (cnotOp, [enc coord, enc d]) := by
          simp only [List.mem_cons, List.not_mem_nil, or_false] at hx
          rcases hx with rfl | rfl | rfl
          · exact ⟨_, by simp, rfl⟩
          · exact ⟨_, by simp, rfl⟩
          · exact ⟨_, by simp, rfl⟩
        obtain ⟨d, hd, rfl⟩ := hcase
        simp only [List.mem_cons, List.not_mem_nil, or_false] at hqx
        rcases hqx with rfl | rfl
        · exact hq' rfl
        · exact hq (List.mem_map_of_mem (hl d hd))
      rw [hj]
      simp [portsAt, Letter.ports, hq, hq', Ne.symm hq', through]

theorem xOps_ready {enc : Int × Int → Int} (he : Function.Injective enc) {coords : List (Int × Int)} (hc : coords.Nodup) (n : Nat) {out : Int → Nat} (ho : Good out) :
    ∀ x ∈ xOps enc coords out, Built ctr (n + 1) false x.1 ∧ Appendable (shapes ctr (n + 1)) x := by
  have hp : ((xDance.flatMap (slotPairs coords)).map orient).Perm (edges (inGroups coords [.X1, .X2]) coords) := c67_x_pairs hc
  have hE := (enc_edges he (l := [.X1, .X2]) (by decide) hp).2
  exact fun x hx => ⟨stabOps_built n ho x hx, stabOps_appendable n hE _ x hx⟩

/-- The logical X operator of the demo: X on (0, 0), (2, 0) and (4, 0). -/
def logicalX (enc : Int × Int → Int) : List Int := [enc (0, 0), enc (2, 0), enc (4, 0)]

/-- **C68**: `initial_state(coord)` is (|0⟩ ⊗ code + |1⟩ ⊗ X_L code) / √2, with the qubit `coord` first: the amplitude is that of the logical state 0,
with the qubits of the logical X flipped if `coord` is 1. -/
theorem c68_state (hctr : Evaluates ctr) {enc : Int × Int → Int} (he : Function.Injective enc) {coords : List (Int × Int)} (hc : coords.Nodup)
    {coord : Int × Int} (h0 : coord ∉ coords) (hl : ∀ d ∈ [((0 : Int), (0 : Int)), (2, 0), (4, 0)], d ∈ coords) (n : Nat) {Q : List Int}
    (hs : Q.Pairwise (· < ·)) (hQ : ∀ q, q ∈ Q ↔ q ∈ (coord :: coords).map enc) :
    ∃ c t, initialState (shapes ctr (n + 1)) enc coords coord = .ok c ∧ Built ctr (n + 2) false (.circ c) ∧ (iface ctr (n + 2)).tensor (.circ c) = .ok t ∧
      ∀ u : Int → Nat, Good u → t.tot (Q.map u) = ((1 / Real.sqrt 2 : ℝ) : ℂ) *
        codeZero enc coords (if u (enc coord) = 0 then fun q => (u q : ZMod 2) else flips (logicalX enc) fun q => (u q : ZMod 2)) := by
  have hne : ∀ d ∈ [((0 : Int), (0 : Int)), (2, 0), (4, 0)], coord ≠ d := fun d hd h => h0 (h ▸ hl d hd)
  have hb : ∀ x ∈ initOps enc coords coord, Built ctr (n + 1) false x.1 := by
    intro x hx
    rcases init_mem hx with ⟨q, rfl⟩ | h | rfl | ⟨d, _, rfl⟩
    · exact zeroState_built n
    · exact (xOps_ready he hc n (fun _ => Nat.zero_lt_two) x h).1
    · exact plusState_built n
    · exact cnot_built n
  have hf : ∀ x ∈ initOps enc coords coord, Appendable (shapes ctr (n + 1)) x := by
    intro x hx
    rcases init_mem hx with ⟨q, rfl⟩ | h | rfl | ⟨d, hd, rfl⟩
    · exact ⟨[[.o]], rfl, rfl, by simp⟩
    · exact (xOps_ready he hc n (fun _ => Nat.zero_lt_two) x h).2
    · exact ⟨[[.o]], rfl, rfl, by simp⟩
    · exact ⟨[[.c], [.i, .o]], rfl, rfl, by simpa using fun h => hne d hd (he h)⟩
  have hword := init_word (ctr := ctr) he hc h0 hl n
  unfold wordOf at hword
  obtain ⟨c, t, h1, h2, h3, h4⟩ := c63_tensor hctr hb hf (outQ := Q) (inQ := []) (fun q => by
      obtain ⟨k, h⟩ := hword q
      rw [h]
      split
      · exact (through_chain k).1
      · unfold Connectable; exact List.isChain_nil)
    ⟨hs, fun q => by
      obtain ⟨k, h⟩ := hword q
      rw [h, hQ]
      split
      · rename_i h; rw [through_last]; simp only [h, true_iff]; split <;> rfl
      · rename_i h
        simp only [List.getLast?_nil, iff_false, h, false_iff, reduceCtorEq, not_false_eq_true]⟩
    ⟨List.Pairwise.nil, fun q => by
      obtain ⟨k, h⟩ := hword q
      rw [h]
      split <;> simp⟩
  refine ⟨c, t, (initialState_eq _ _ _ _).trans h1, h2, h3, fun u hu => ?_⟩
  have := h4 u u hu hu
  rw [List.map_nil, List.append_nil] at this
  rw [this]
  refine (init_evolve he hc ⟨hne _ (by simp), hne _ (by simp), hne _ (by simp)⟩ n hu u).trans ?_
  have c1 : enc (0, 0) ≠ enc coord := fun h => hne _ (by simp) (he h).symm
  have c2 : enc (2, 0) ≠ enc coord := fun h => hne _ (by simp) (he h).symm
  have c3 : enc (4, 0) ≠ enc coord := fun h => hne _ (by simp) (he h).symm
  have d1 : enc (0, 0) ≠ enc (2, 0) := fun h => by have := he h; simp at this
  have d2 : enc (0, 0) ≠ enc (4, 0) := fun h => by have := he h; simp at this
  have d3 : enc (2, 0) ≠ enc (4, 0) := fun h => by have := he h; simp at this
  have key : ∀ (Φ : Amp) (z : Int → ZMod 2), cnots [(enc (0, 0), enc coord), (enc (2, 0), enc coord), (enc (4, 0), enc coord)] Φ z =
      Φ (if z (enc coord) = 0 then z else flips (logicalX enc) z) := by
    intro Φ z
    simp only [cnots, List.foldl_cons, List.foldl_nil, cnop]
    congr 1
    funext q
    rcases zmod2 (z (enc coord)) with hz | hz
    · simp [hz, update_of_ne c3.symm, update_of_ne c2.symm]
    · rw [if_neg (by rw [hz]; decide)]
      unfold flips logicalX
      by_cases q1 : q = enc (0, 0)
      · subst q1; simp [hz, c1, c2, c3, d1, d2, d3, c1.symm, c2.symm, c3.symm, d1.symm, d2.symm, d3.symm]
      · by_cases q2 : q = enc (2, 0)
        · subst q2; simp [hz, c1, c2, c3, d1, d2, d3, c1.symm, c2.symm, c3.symm, d1.symm, d2.symm, d3.symm]
        · by_cases q3 : q = enc (4, 0)
          · subst q3; simp [hz, c1, c2, c3, d1, d2, d3, c1.symm, c2.symm, c3.symm, d1.symm, d2.symm, d3.symm]
          · simp [q1, q2, q3, Ne.symm q1, Ne.symm q2, Ne.symm q3]
  show cnots _ _ (fun q => ((u q : Nat) : ZMod 2)) = _
  rw [key]
  have e : ((u (enc coord) : Nat) : ZMod 2) = 0 ↔ u (enc coord) = 0 := by
    rcases good_cases hu (enc coord) with h | h <;> simp [h]
  simp only [e]

/-! ## The code -/

/-- The logical state 1: the logical X applied to the logical state 0. -/
noncomputable def codeOne (enc : Int × Int → Int) (coords : List (Int × Int)) : Amp := fun z => codeZero enc coords (flips (logicalX enc) z)

theorem xproj_shift (s : ZMod 2) (N L : List Int) (Φ : Amp) : xproj s N (fun z => Φ (flips L z)) = fun z => xproj s N Φ (flips L z) := by
  funext z; unfold xproj; rw [flips_flips]

/-- **C68**: both logical states are fixed by all X stabilizers. -/
theorem c68_x {enc : Int × Int → Int} (he : Function.Injective enc) {coords : List (Int × Int)} {a : Int × Int} (ha : a ∈ inGroups coords [.X1, .X2]) :
    xproj 0 ((coords.filter (adjacent a)).map enc) (codeZero enc coords) = codeZero enc coords ∧
      xproj 0 ((coords.filter (adjacent a)).map enc) (codeOne enc coords) = codeOne enc coords := by
  have hn : ∀ d ∈ (coords.filter (adjacent a)).map enc, d ∉ (inGroups coords [.X1, .X2]).map enc := by
    intro q hq hq'
    obtain ⟨d, hd, rfl⟩ := List.mem_map.1 hq
    obtain ⟨d', hd', e⟩ := List.mem_map.1 hq'
    rw [he e] at hd'
    obtain ⟨g, hg, hag⟩ := mem_inGroups.1 ha
    obtain ⟨h1, h2⟩ := List.mem_filter.1 hd
    have hg' : ∀ g ∈ [Grp.X1, .X2], g ∈ [Grp.X1, .X2, .Z1, .Z2] := by decide
    exact data_not_anc hg' (even_data (hg' g hg) hag h1 h2) hd'
  have h1 : xproj 0 ((coords.filter (adjacent a)).map enc) (codeZero enc coords) = codeZero enc coords := by
    unfold codeZero
    rw [xproj_zeroed hn]
    exact congrArg _ (xproj_fold (fun _ => 0) (fun a => (coords.filter (adjacent a)).map enc) _ ha _)
  refine ⟨h1, ?_⟩
  unfold codeOne
  rw [xproj_shift, h1]

theorem overlap {enc : Int × Int → Int} (he : Function.Injective enc) (M N : List (Int × Int)) :
    ((M.map enc).map fun q => (N.map enc).count q).sum = (M.map fun d => N.count d).sum := by
  rw [List.map_map]
  refine congrArg _ (List.map_congr_left fun d _ => ?_)
  exact List.count_map_of_injective N enc he d

/-- A product of Z operators that overlaps evenly with all X stabilizers is 1 on the logical state 0. -/
theorem code_even {enc : Int × Int → Int} (he : Function.Injective enc) {coords M : List (Int × Int)} (hM : ∀ d ∈ M, d ∈ coords)
    (h : ∀ a ∈ inGroups coords [.X1, .X2], (M.map fun d => (coords.filter (adjacent a)).count d).sum % 2 = 0) : EvenOn (M.map enc) (codeZero enc coords) := by
  refine (EvenOn.fold (fun _ => 0) (fun a => (coords.filter (adjacent a)).map enc) (fun a ha => ?_) ?_).zeroed _
  · rw [overlap he]; exact h a ha
  · intro z hz
    unfold zeroed at hz
    split at hz
    · rename_i h0
      refine List.sum_eq_zero fun x hx => ?_
      obtain ⟨q, hq, rfl⟩ := List.mem_map.1 hx
      obtain ⟨d, hd, rfl⟩ := List.mem_map.1 hq
      exact h0 _ (List.mem_map_of_mem (hM d hd))
    · exact absurd rfl hz

/-- **C68**: both logical states of the demo are fixed by all Z stabilizers. -/
theorem c68_z {enc : Int × Int → Int} (he : Function.Injective enc) {b : Int × Int} (hb : b ∈ inGroups demoCoords [.Z1, .Z2]) :
    zproj 0 ((demoCoords.filter (adjacent b)).map enc) (codeZero enc demoCoords) = codeZero enc demoCoords ∧
      zproj 0 ((demoCoords.filter (adjacent b)).map enc) (codeOne enc demoCoords) = codeOne enc demoCoords := by
  have h1 : EvenOn ((demoCoords.filter (adjacent b)).map enc) (codeZero enc demoCoords) := by
    refine code_even he (fun d hd => (List.mem_filter.1 hd).1) ?_
    revert b
    decide +kernel
  refine ⟨h1.zproj, EvenOn.zproj fun z hz => ?_⟩
  have := h1 _ hz
  rw [sum_flips] at this
  have hL : ((((demoCoords.filter (adjacent b)).map enc).map fun q => (logicalX enc).count q).sum : Nat) % 2 = 0 := by
    have : logicalX enc = [((0 : Int), (0 : Int)), (2, 0), (4, 0)].map enc := rfl
    rw [this, overlap he]
    exact (by decide +kernel : ∀ b ∈ inGroups demoCoords [.Z1, .Z2],
      ((demoCoords.filter (adjacent b)).map fun d => [((0 : Int), (0 : Int)), (2, 0), (4, 0)].count d).sum % 2 = 0) b hb
  have hc : (((((demoCoords.filter (adjacent b)).map enc).map fun q => (logicalX enc).count q).sum : Nat) : ZMod 2) = 0 := by
    rw [ZMod.natCast_eq_zero_iff]; omega
  rwa [hc, add_zero] at this

/-- The logical Z operator. -/
def logicalZ (enc : Int × Int → Int) : List Int := [((0 : Int), (0 : Int)), (0, 2), (0, 4)].map enc

/-- **C68**: the logical Z is 1 on the logical state 0 and -1 on the logical state 1. -/
theorem c68_logical {enc : Int × Int → Int} (he : Function.Injective enc) :
    zproj 0 (logicalZ enc) (codeZero enc demoCoords) = codeZero enc demoCoords ∧ zproj 1 (logicalZ enc) (codeOne enc demoCoords) = codeOne enc demoCoords := by
  have h1 : EvenOn (logicalZ enc) (codeZero enc demoCoords) := code_even he (by decide) (by decide +kernel)
  refine ⟨h1.zproj, ?_⟩
  funext z
  rw [zproj_eq]
  by_cases hz : codeOne enc demoCoords z = 0
  · rw [hz, ite_self]
  · rw [if_pos]
    have := h1 _ hz
    rw [sum_flips] at this
    have hL : (((logicalZ enc).map fun q => (logicalX enc).count q).sum : Nat) = 1 := by
      have : logicalX enc = [((0 : Int), (0 : Int)), (2, 0), (4, 0)].map enc := rfl
      rw [this, logicalZ, overlap he]
      decide
    rw [hL, Nat.cast_one] at this
    rw [add_comm]; exact this

/-- **C68**: the two branches of the initial state are orthogonal: no basis state has an amplitude in both. -/
theorem c68_orthogonal {enc : Int × Int → Int} (he : Function.Injective enc) (z : Int → ZMod 2) : codeZero enc demoCoords z * codeOne enc demoCoords z = 0 := by
  obtain ⟨h0, h1⟩ := c68_logical he
  rw [← h0, ← h1, zproj_eq, zproj_eq]
  by_cases h : (0 : ZMod 2) + ((logicalZ enc).map z).sum = 0
  · rw [zero_add] at h
    rw [h, if_neg (by decide : ¬ (1 : ZMod 2) + 0 = 0), mul_zero]
  · rw [if_neg h, zero_mul]

theorem xproj_pos {N : List Int} {Φ : Amp} (h : ∀ z, ∃ r : ℝ, 0 ≤ r ∧ Φ z = r) : ∀ z, ∃ r : ℝ, 0 ≤ r ∧ xproj 0 N Φ z = r ∧ (Φ z ≠ 0 → r ≠ 0) := by
  intro z
  obtain ⟨r, hr, e⟩ := h z
  obtain ⟨r', hr', e'⟩ := h (flips N z)
  refine ⟨(r + r') / 2, by positivity, ?_, ?_⟩
  · unfold xproj sgn
    rw [e, e']; push_cast; simp
  · rw [e]
    intro hne
    have : r ≠ 0 := fun h => hne (by rw [h]; simp)
    have : 0 < r := lt_of_le_of_ne hr (Ne.symm this)
    have : 0 < (r + r') / 2 := by linarith
    exact ne_of_gt this

/-- **C68**: the logical state 0 is not zero (its amplitude at 0…0 is positive), nor is the logical state 1. -/
theorem c68_nonzero (enc : Int × Int → Int) (coords : List (Int × Int)) :
    codeZero enc coords (fun _ => 0) ≠ 0 ∧ codeOne enc coords (flips (logicalX enc) fun _ => 0) ≠ 0 := by
  have hfold : ∀ (l : List (Int × Int)) (Φ : Amp), (∀ z, ∃ r : ℝ, 0 ≤ r ∧ Φ z = r) → Φ (fun _ => 0) ≠ 0 →
      l.foldl (fun Φ a => xproj 0 ((coords.filter (adjacent a)).map enc) Φ) Φ (fun _ => 0) ≠ 0 := by
    intro l
    induction l with
    | nil => intro Φ _ h; exact h
    | cons a l ih =>
      intro Φ h h0
      rw [List.foldl_cons]
      have hp := xproj_pos (N := (coords.filter (adjacent a)).map enc) h
      refine ih _ (fun z => ?_) ?_
      · obtain ⟨r, h1, h2, -⟩ := hp z; exact ⟨r, h1, h2⟩
      · obtain ⟨r, -, h2, h3⟩ := hp fun _ => 0
        rw [h2]
        exact_mod_cast h3 h0
  have h1 : codeZero enc coords (fun _ => 0) ≠ 0 := by
    unfold codeZero
    rw [zeroed, if_pos fun _ _ => rfl]
    refine hfold _ _ (fun z => ?_) ?_
    · unfold zeroed; split
      · exact ⟨1, by norm_num, by simp⟩
      · exact ⟨0, le_rfl, by simp⟩
    · rw [zeroed, if_pos fun _ _ => rfl]; exact one_ne_zero
  refine ⟨h1, ?_⟩
  unfold codeOne
  rwa [flips_twice]

/-! ## The corrections of `final_measurement` -/

theorem sum_pick (C : List ((Int × Int) × (Int × Int))) (a : Int × Int) (j : Int × Int → ZMod 2) (c : Int × Int → Nat) (hc : ∀ e ∈ C, c e.2 % 2 = if e.1 = a then 1 else 0) :
    (C.map fun e => j e.1 * ((c e.2 : Nat) : ZMod 2)).sum = ((C.map Prod.fst).count a : ZMod 2) * j a := by
  induction C with
  | nil => simp
  | cons e C ih =>
    rw [List.map_cons, List.sum_cons, ih fun e he => hc e (List.mem_cons_of_mem _ he), List.map_cons, List.count_cons]
    have h := hc e List.mem_cons_self
    have hm : ((c e.2 : Nat) : ZMod 2) = ((c e.2 % 2 : Nat) : ZMod 2) := (ZMod.natCast_mod _ _).symm
    rw [hm, h]
    by_cases hea : e.1 = a
    · simp [hea]; ring
    · simp [hea]

/-- Corrections that each anticommute with one stabilizer `N a`. -/
theorem zCorrect_xproj {enc : Int × Int → Int} (he : Function.Injective enc) {C : List ((Int × Int) × (Int × Int))} {a : Int × Int} {N : List (Int × Int)}
    (hC : ∀ e ∈ C, N.count e.2 % 2 = if e.1 = a then 1 else 0) (h1 : (C.map Prod.fst).count a = 1) (j : Int × Int → ZMod 2) (s : ZMod 2) (Φ : Amp) :
    xproj s (N.map enc) (zCorrect enc C j Φ) = zCorrect enc C j (xproj (s + j a) (N.map enc) Φ) := by
  funext z
  have e : (C.map fun e => j e.1 * flips (N.map enc) z (enc e.2)).sum = (C.map fun e => j e.1 * z (enc e.2)).sum + j a := by
    have := sum_pick C a j (fun d => N.count d) hC
    rw [h1, Nat.cast_one, one_mul] at this
    rw [← this, ← List.sum_map_add]
    refine congrArg _ (List.map_congr_left fun e _ => ?_)
    unfold flips
    rw [List.count_map_of_injective N enc he]
    ring
  unfold xproj
  show (sgn _ * Φ z + sgn s * (sgn _ * Φ _)) / 2 = sgn _ * _
  rw [e, sgn_add, sgn_add]
  ring

theorem xCorrect_zproj {enc : Int × Int → Int} (he : Function.Injective enc) {C : List ((Int × Int) × (Int × Int))} {b : Int × Int} {N : List (Int × Int)}
    (hC : ∀ e ∈ C, N.count e.2 % 2 = if e.1 = b then 1 else 0) (h1 : (C.map Prod.fst).count b = 1) (j : Int × Int → ZMod 2) (s : ZMod 2) (Φ : Amp) :
    zproj s (N.map enc) (xCorrect enc C j Φ) = xCorrect enc C j (zproj (s + j b) (N.map enc) Φ) := by
  funext z
  unfold xCorrect
  rw [zproj_eq, zproj_eq]
  have e : (((N.map enc).map fun q => z q + (C.map fun e => if enc e.2 = q then j e.1 else 0).sum).sum) = ((N.map enc).map z).sum + j b := by
    have hs := sum_pick C b j (fun d => N.count d) hC
    rw [h1, Nat.cast_one, one_mul] at hs
    rw [List.sum_map_add, ← hs]
    congr 1
    clear hs hC
    induction N with
    | nil => simp
    | cons d N ih =>
      rw [List.map_cons, List.map_cons, List.sum_cons, ih, ← List.sum_map_add]
      refine congrArg _ (List.map_congr_left fun e _ => ?_)
      rw [List.count_cons]
      by_cases hd : d = e.2
      · simp [hd]; ring
      · have : enc e.2 ≠ enc d := fun h => hd (he h).symm
        simp [hd, this]
  rw [e]
  have : s + j b + (((N.map enc).map z).sum + j b) = s + ((N.map enc).map z).sum := by
    have h2 : j b + j b = 0 := by rcases zmod2 (j b) with h | h <;> rw [h] <;> decide
    linear_combination h2
  rw [this]

/-- **C68**: the CZ gates of `final_measurement` correct the X syndrome: on a state with syndrome `s` the branch `j` of the ancillas is fixed by the X
stabilizers if `j` is `s`, and orthogonal to the code otherwise. So the sum over all branches that the demo contracts is the corrected state. -/
theorem c68_correct_x {enc : Int × Int → Int} (he : Function.Injective enc) {s : Int × Int → ZMod 2} {Φ : Amp}
    (hΦ : ∀ a ∈ inGroups demoCoords [.X1, .X2], xproj (s a) ((demoCoords.filter (adjacent a)).map enc) Φ = Φ) (j : Int × Int → ZMod 2)
    {a : Int × Int} (ha : a ∈ inGroups demoCoords [.X1, .X2]) :
    xproj 0 ((demoCoords.filter (adjacent a)).map enc) (zCorrect enc finalCz j Φ) = if j a = s a then zCorrect enc finalCz j Φ else fun _ => 0 := by
  have hd : ∀ a ∈ inGroups demoCoords [.X1, .X2], (∀ e ∈ finalCz, (demoCoords.filter (adjacent a)).count e.2 % 2 = if e.1 = a then 1 else 0) ∧
      (finalCz.map Prod.fst).count a = 1 := by decide +kernel
  rw [zCorrect_xproj he (hd a ha).1 (hd a ha).2, zero_add]
  split
  · rename_i h; rw [h, hΦ a ha]
  · rename_i h
    rw [← hΦ a ha]
    funext z
    have : xproj (j a) ((demoCoords.filter (adjacent a)).map enc) (xproj (s a) ((demoCoords.filter (adjacent a)).map enc) Φ) = fun _ => 0 := by
      funext z
      unfold xproj
      rw [flips_twice]
      rcases zmod2 (j a) with h1 | h1 <;> rcases zmod2 (s a) with h2 | h2 <;> rw [h1, h2] at h ⊢
      · exact absurd rfl h
      · unfold sgn; rw [if_pos rfl, if_neg (by decide)]; ring
      · unfold sgn; rw [if_pos rfl, if_neg (by decide)]; ring
      · exact absurd rfl h
    rw [this]; simp [zCorrect]

/-- **C68**: the CNOT gates of `final_measurement` correct the Z syndrome. -/
theorem c68_correct_z {enc : Int × Int → Int} (he : Function.Injective enc) {s : Int × Int → ZMod 2} {Φ : Amp}
    (hΦ : ∀ b ∈ inGroups demoCoords [.Z1, .Z2], zproj (s b) ((demoCoords.filter (adjacent b)).map enc) Φ = Φ) (j : Int × Int → ZMod 2)
    {b : Int × Int} (hb : b ∈ inGroups demoCoords [.Z1, .Z2]) :
    zproj 0 ((demoCoords.filter (adjacent b)).map enc) (xCorrect enc finalCnot j Φ) = if j b = s b then xCorrect enc finalCnot j Φ else fun _ => 0 := by
  have hd : ∀ a ∈ inGroups demoCoords [.Z1, .Z2], (∀ e ∈ finalCnot, (demoCoords.filter (adjacent a)).count e.2 % 2 = if e.1 = a then 1 else 0) ∧
      (finalCnot.map Prod.fst).count a = 1 := by decide +kernel
  rw [xCorrect_zproj he (hd b hb).1 (hd b hb).2, zero_add]
  split
  · rename_i h; rw [h, hΦ b hb]
  · rename_i h
    rw [← hΦ b hb]
    have : zproj (j b) ((demoCoords.filter (adjacent b)).map enc) (zproj (s b) ((demoCoords.filter (adjacent b)).map enc) Φ) = fun _ => 0 := by
      funext z
      rw [zproj_eq, zproj_eq]
      split
      · rename_i h1
        rw [if_neg]
        intro h2
        exact h (add_right_cancel (h1.trans h2.symm))
      · rfl
    rw [this]; rfl

/-- The hypotheses of `c68_state` hold for the demo with its default `coord`. -/
example : ∃ c t, initialState (shapes evalAll 1) pairUp demoCoords (-100, -100) = .ok c ∧ (iface evalAll 2).tensor (.circ c) = .ok t ∧
    t.tot (((((-100, -100) :: demoCoords).map pairUp).toFinset.sort (· ≤ ·)).map fun _ => 0) ≠ 0 := by
  obtain ⟨c, t, h1, -, h3, h4⟩ := c68_state evalAll_evaluates pairUp_injective demoCoords_nodup (coord := (-100, -100)) (by decide) (by decide) 0
    (sortLT (((-100, -100) :: demoCoords).map pairUp)) (fun q => by rw [Finset.mem_sort, List.mem_toFinset])
  refine ⟨c, t, h1, h3, ?_⟩
  rw [h4 _ fun _ => Nat.zero_lt_two, if_pos rfl]
  refine mul_ne_zero ?_ ?_
  · have : (1 / Real.sqrt 2 : ℝ) ≠ 0 := by positivity
    exact_mod_cast this
  · simpa using (c68_nonzero pairUp demoCoords).1

/-- A Z error on (2, 2) of the logical state 0 gives the syndrome 1 at the X ancillas (1, 1) and (3, 3): the hypothesis of `c68_correct_x`. -/
example : ∃ s : Int × Int → ZMod 2, s (1, 1) = 1 ∧ s (3, 3) = 1 ∧ ∀ a ∈ inGroups demoCoords [.X1, .X2],
    xproj (s a) ((demoCoords.filter (adjacent a)).map pairUp) (fun z => sgn (z (pairUp (2, 2))) * codeZero pairUp demoCoords z) =
      fun z => sgn (z (pairUp (2, 2))) * codeZero pairUp demoCoords z := by
  refine ⟨fun a => if a = (1, 1) ∨ a = (3, 3) then 1 else 0, rfl, rfl, fun a ha => ?_⟩
  have hs : ((demoCoords.filter (adjacent a)).count (2, 2) : ZMod 2) = if a = (1, 1) ∨ a = (3, 3) then 1 else 0 := by
    revert a
    decide +kernel
  have hx := (c68_x pairUp_injective ha).1
  funext z
  have hz := congrFun hx z
  unfold xproj at hz ⊢
  beta_reduce
  have : flips ((demoCoords.filter (adjacent a)).map pairUp) z (pairUp (2, 2)) = z (pairUp (2, 2)) + if a = (1, 1) ∨ a = (3, 3) then 1 else 0 := by
    unfold flips
    rw [List.count_map_of_injective _ _ pairUp_injective, hs]
  rw [this, sgn_add]
  have h0 : sgn 0 = 1 := by simp [sgn]
  have hsq : sgn (if a = (1, 1) ∨ a = (3, 3) then 1 else 0) * sgn (if a = (1, 1) ∨ a = (3, 3) then 1 else 0) = 1 :=
    (fun x => by unfold sgn; split <;> ring : ∀ x : ZMod 2, sgn x * sgn x = 1) _
  rw [h0] at hz
  generalize sgn (if a = (1, 1) ∨ a = (3, 3) then 1 else 0) = y at *
  linear_combination (sgn (z (pairUp (2, 2)))) * hz + (1 / 2 * sgn (z (pairUp (2, 2))) * codeZero pairUp demoCoords (flips ((demoCoords.filter (adjacent a)).map pairUp) z)) * hsq

/-- An X error on (2, 2) of the logical state 0 gives the syndrome 1 at the Z ancillas (1, 3) and (3, 1): the hypothesis of `c68_correct_z`. -/
example : ∃ s : Int × Int → ZMod 2, s (1, 3) = 1 ∧ s (3, 1) = 1 ∧ ∀ b ∈ inGroups demoCoords [.Z1, .Z2],
    zproj (s b) ((demoCoords.filter (adjacent b)).map pairUp) (fun z => codeZero pairUp demoCoords (flips [pairUp (2, 2)] z)) =
      fun z => codeZero pairUp demoCoords (flips [pairUp (2, 2)] z) := by
  refine ⟨fun a => if a = (1, 3) ∨ a = (3, 1) then 1 else 0, rfl, rfl, fun b hb => ?_⟩
  have hs : (((demoCoords.filter (adjacent b)).map fun d => [((2 : Int), (2 : Int))].count d).sum : ZMod 2) = if b = (1, 3) ∨ b = (3, 1) then 1 else 0 := by
    revert b
    decide +kernel
  have hz0 := (c68_z pairUp_injective hb).1
  funext z
  have h := congrFun hz0 (flips [pairUp (2, 2)] z)
  rw [zproj_eq, sum_flips] at h
  rw [zproj_eq]
  have e : (((((demoCoords.filter (adjacent b)).map pairUp).map fun q => [pairUp (2, 2)].count q).sum : Nat) : ZMod 2) =
      if b = (1, 3) ∨ b = (3, 1) then 1 else 0 := by
    rw [← hs]
    have := overlap pairUp_injective (demoCoords.filter (adjacent b)) [((2 : Int), (2 : Int))]
    rw [← this]; rfl
  rw [e, zero_add, add_comm] at h
  exact h

end Oper

end Verif
