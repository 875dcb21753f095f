import Verif.Lemmas.FinalMeasure
/-!
# C77: `final_measurement` of the surface code demo as a circuit of mixed operations
-/

namespace Verif

namespace Qec

open Function

/-- The assignment with the values `x` on `A`. -/
def setOn (A : List Int) (x z : Int → ZMod 2) : Int → ZMod 2 := fun q => if q ∈ A then x q else z q

/-- The state with the values `y` on `A`, and `Φ` with zeros on `A` on the rest. -/
noncomputable def beside (A : List Int) (y : Int → ZMod 2) (Φ : Amp) : Amp := fun z => if ∀ a ∈ A, z a = y a then Φ (setOn A (fun _ => 0) z) else 0

theorem setOn_nil (x z : Int → ZMod 2) : setOn [] x z = z := by
  funext q
  simp [setOn]

theorem setOn_setOn (A : List Int) (x y z : Int → ZMod 2) : setOn A x (setOn A y z) = setOn A x z := by
  funext q
  unfold setOn
  split <;> rfl

end Qec

namespace Oper

open Circ Qec Function

set_option linter.unusedSimpArgs false

variable {ctr : TVal ℂ → Except Err (Arr ℂ)}

theorem swapAll_eq (x y : Int → ZMod 2) {l : List Int} (hl : l.Nodup) : ∀ Φ z,
    l.foldl (fun Φ a => swapIn a (x a) (y a) Φ) Φ z = if ∀ a ∈ l, z a = y a then Φ (setOn l x z) else 0 := by
  induction l with
  | nil => intro Φ z; simp [setOn_nil]
  | cons a l ih =>
    intro Φ z
    rw [List.nodup_cons] at hl
    rw [List.foldl_cons, ih hl.2]
    unfold swapIn setOn
    simp only [List.mem_cons, forall_eq_or_imp, if_neg hl.1]
    by_cases h1 : ∀ x ∈ l, z x = y x
    · by_cases h2 : z a = y a
      · rw [if_pos h1, if_pos h2, if_pos ⟨h2, h1⟩]
        congr 1
        funext q
        by_cases hq : q = a
        · subst hq; simp
        · simp [hq]
      · rw [if_pos h1, if_neg h2, if_neg (fun h => h2 h.1)]
    · rw [if_neg h1, if_neg (fun h => h1 h.2)]

theorem cz_fold (x y : Int → ZMod 2) {C : List (Int × Int)} (hn : (C.map Prod.fst).Nodup) {A : List Int} (hA : ∀ e ∈ C, e.1 ∈ A ∧ e.2 ∉ A) : ∀ Φ z,
    C.foldl (fun Φ e => swapIn e.1 (x e.1) (y e.1) (czop e Φ)) Φ z =
      if ∀ a ∈ C.map Prod.fst, z a = y a then sgn (C.map fun e => x e.1 * z e.2).sum * Φ (setOn (C.map Prod.fst) x z) else 0 := by
  induction C with
  | nil => intro Φ z; simp [setOn_nil, sgn]
  | cons e C ih =>
    intro Φ z
    rw [List.map_cons, List.nodup_cons] at hn
    have hA' := fun e he => hA e (List.mem_cons_of_mem _ he)
    have h2 : e.2 ∉ C.map Prod.fst := fun h => by
      obtain ⟨e', h1, h2⟩ := List.mem_map.1 h
      exact (hA e List.mem_cons_self).2 (h2 ▸ (hA' e' h1).1)
    have h3 : e.2 ≠ e.1 := fun h => (hA e List.mem_cons_self).2 (h ▸ (hA e List.mem_cons_self).1)
    rw [List.foldl_cons, ih hn.2 hA']
    unfold swapIn czop setOn
    simp only [List.map_cons, List.mem_cons, forall_eq_or_imp, if_neg hn.1, List.sum_cons, update_self, update_of_ne h3, if_neg h2, sgn_add]
    by_cases h1 : ∀ a ∈ C.map Prod.fst, z a = y a
    · by_cases h4 : z e.1 = y e.1
      · rw [if_pos h1, if_pos h4, if_pos ⟨h4, h1⟩, mul_comm (sgn (x e.1 * z e.2)) (sgn _), mul_assoc]
        refine congrArg (sgn _ * ·) (congrArg (sgn _ * ·) (congrArg Φ ?_))
        funext q
        by_cases hq : q = e.1
        · subst hq; simp
        · rw [update_of_ne hq]
          exact if_congr (by simp only [hq, false_or]) rfl rfl
      · rw [if_pos h1, if_neg h4, if_neg (fun h => h4 h.1), mul_zero]
    · rw [if_neg h1, if_neg (fun h => h1 h.2)]

/-- The data qubits flipped by the CNOT gates with controls `x`. -/
def shiftBy (C : List (Int × Int)) (x z : Int → ZMod 2) : Int → ZMod 2 := fun q => z q + (C.map fun e => if e.2 = q then x e.1 else 0).sum

theorem shiftBy_off {C : List (Int × Int)} {q : Int} (h : ∀ e ∈ C, e.2 ≠ q) (x z : Int → ZMod 2) : shiftBy C x z q = z q := by
  unfold shiftBy
  have : (C.map fun e => if e.2 = q then x e.1 else 0) = C.map fun _ => 0 := List.map_congr_left fun e he => if_neg (h e he)
  rw [this]
  simp

theorem cnot_fold (x y : Int → ZMod 2) {C : List (Int × Int)} (hn : (C.map Prod.fst).Nodup) {A : List Int} (hA : ∀ e ∈ C, e.1 ∈ A ∧ e.2 ∉ A) : ∀ Φ z,
    C.foldl (fun Φ e => swapIn e.1 (x e.1) (y e.1) (cnop (e.2, e.1) Φ)) Φ z =
      if ∀ a ∈ C.map Prod.fst, z a = y a then Φ (setOn (C.map Prod.fst) x (shiftBy C x z)) else 0 := by
  induction C with
  | nil =>
    intro Φ z
    have : shiftBy [] x z = z := by funext q; simp [shiftBy]
    rw [List.map_nil, setOn_nil, this]
    simp
  | cons e C ih =>
    intro Φ z
    rw [List.map_cons, List.nodup_cons] at hn
    have hA' := fun e he => hA e (List.mem_cons_of_mem _ he)
    have h2 : e.2 ∉ C.map Prod.fst := fun h => by
      obtain ⟨e', h1, h2⟩ := List.mem_map.1 h
      exact (hA e List.mem_cons_self).2 (h2 ▸ (hA' e' h1).1)
    have h3 : e.2 ≠ e.1 := fun h => (hA e List.mem_cons_self).2 (h ▸ (hA e List.mem_cons_self).1)
    have h5 : ∀ e' ∈ C, e'.2 ≠ e.1 := fun e' he' h => (hA' e' he').2 (h ▸ (hA e List.mem_cons_self).1)
    rw [List.foldl_cons, ih hn.2 hA']
    unfold swapIn cnop
    have h6 : setOn (C.map Prod.fst) x (shiftBy C x z) e.1 = z e.1 := by unfold setOn; rw [if_neg hn.1, shiftBy_off h5]
    have h7 : setOn (C.map Prod.fst) x (shiftBy C x z) e.2 = shiftBy C x z e.2 := by unfold setOn; rw [if_neg h2]
    simp only [List.map_cons, List.mem_cons, forall_eq_or_imp, h6, update_self, update_of_ne h3, h7]
    by_cases h1 : ∀ a ∈ C.map Prod.fst, z a = y a
    · by_cases h4 : z e.1 = y e.1
      · rw [if_pos h1, if_pos h4, if_pos ⟨h4, h1⟩]
        congr 1
        funext q
        unfold setOn shiftBy
        by_cases hq : q = e.2
        · subst hq
          simp [h2, h3]
          ring
        · rw [update_of_ne hq]
          by_cases hq1 : q = e.1
          · subst hq1; simp
          · rw [update_of_ne hq1]
            simp only [List.mem_cons, hq1, false_or]
            simp [Ne.symm hq]
      · rw [if_pos h1, if_neg h4, if_neg (fun h => h4 h.1)]
    · rw [if_neg h1, if_neg (fun h => h1 h.2)]

/-! ## Sums -/

/-- A sum setOn all values with one that counts. -/
theorem sumOver_delta {l : List Int} (hl : l.Nodup) {j : Int → Nat} (hj : ∀ a ∈ l, j a < 2) (F : ℂ) (c : Int → Nat) :
    sumOver bits l (fun y => if ∀ a ∈ l, y a = j a then F else 0) c = F := by
  induction l generalizing c with
  | nil => simp
  | cons a l ih =>
    rw [List.nodup_cons] at hl
    have e : ∀ b, sumOver bits l (fun y => if ∀ a' ∈ a :: l, y a' = j a' then F else 0) (update c a b) = if b = j a then F else 0 := by
      intro b
      have : sumOver bits l (fun y => if ∀ a' ∈ a :: l, y a' = j a' then F else 0) (update c a b) =
          sumOver bits l (fun y => if b = j a then (if ∀ a' ∈ l, y a' = j a' then F else 0) else 0) (update c a b) := by
        refine sumOver_congr_reach fun y hy => ?_
        have hb : y a = b := by rw [hy.1 a hl.1, update_self]
        simp only [List.mem_cons, forall_eq_or_imp, hb]
        by_cases h1 : b = j a <;> by_cases h2 : ∀ a' ∈ l, y a' = j a' <;> simp [h1, h2]
      rw [this]
      by_cases h1 : b = j a
      · simp only [if_pos h1]
        exact ih hl.2 (fun a ha => hj a (List.mem_cons_of_mem _ ha)) _
      · simp only [if_neg h1]
        exact sumOver_zero _ _ _
    rw [sumOver_cons]
    show ∑ b ∈ Finset.range 2, _ = F
    rw [Finset.sum_range_succ, Finset.sum_range_one, e, e]
    have : j a = 0 ∨ j a = 1 := by have := hj a List.mem_cons_self; omega
    rcases this with h | h <;> simp [h]

theorem reach_good {l : List Int} {x : Int → Nat} (h : Reach bits l (fun _ => 0) x) : Good x := fun q => by
  by_cases hq : q ∈ l
  · exact Finset.mem_range.1 (h.2 q hq)
  · rw [h.1 q hq]; exact Nat.zero_lt_two

/-! ## A measurement with its correction -/

/-- An assignment of bits in `ZMod 2`. -/
def bitsOf (x : Int → Nat) : Int → ZMod 2 := fun q => (x q : ZMod 2)

theorem stage {n : Nat} {P : List (Oper ℂ × List Int)} {U : Amp → Amp}
    (hP : ∀ (Φ Ψ : Amp) {w w' : Int → Nat}, Good w → Good w' → evolveDens (densActs ctr (n + 1) P) (rk Φ Ψ) w w' = rk (U Φ) (U Ψ) w w')
    {A : List Int} (hA : A.Nodup) {Pr : (Int → ZMod 2) → Amp → Amp} (hU : ∀ s Ξ, resets s A (U (zeroed A Ξ)) = zeroed A (Pr s Ξ))
    {C : List (Int × Int)} (hC : (C.map Prod.fst).Perm A) {g : Oper ℂ} {G : Int × Int → Amp → Amp}
    (hG : ∀ e ∈ C, ∀ (Φ Ψ : Amp) {w w' : Int → Nat}, Good w → Good w' → evolveDens (densActs ctr (n + 1) [(g, [e.1, e.2])]) (rk Φ Ψ) w w' = rk (G e Φ) (G e Ψ) w w')
    {f : (Int → ZMod 2) → (Int → ZMod 2) → ℂ} {s : (Int → ZMod 2) → (Int → ZMod 2) → Int → ZMod 2}
    (hfold : ∀ (x y : Int → ZMod 2) Φ z, C.foldl (fun Φ e => swapIn e.1 (x e.1) (y e.1) (G e Φ)) Φ z =
      if ∀ a ∈ C.map Prod.fst, z a = y a then f x z * Φ (setOn (C.map Prod.fst) x (s x z)) else 0)
    (hf : ∀ x z, f x (setOn A (fun _ => 0) z) = f x z) (hs : ∀ x z, s x (setOn A (fun _ => 0) z) = setOn A (fun _ => 0) (s x z))
    (Ξ Ξ' : Amp) {w w' : Int → Nat} (hw : Good w) (hw' : Good w') :
    evolveDens (densActs ctr (n + 1) (P ++ (A.flatMap fun q => [(placeHolder, [q]), (traceState, [q])]) ++ correctOps g C)) (rk (zeroed A Ξ) (zeroed A Ξ')) w w' =
      sumOver bits A (fun x => sumOver bits A (fun j => sumOver bits A (fun y =>
        rk (beside A (bitsOf y) fun z => f (bitsOf j) z * Pr (bitsOf x) Ξ (s (bitsOf j) z))
          (beside A (bitsOf y) fun z => f (bitsOf j) z * Pr (bitsOf x) Ξ' (s (bitsOf j) z)) w w') fun _ => 0) fun _ => 0) fun _ => 0 := by
  classical
  have hmem : ∀ a, a ∈ C.map Prod.fst ↔ a ∈ A := fun a => hC.mem_iff
  have hover : ∀ x z, setOn (C.map Prod.fst) x z = setOn A x z := by
    intro x z; funext q; unfold setOn; simp only [hmem]
  -- the amplitudes
  have key : ∀ (x y j y2 : Int → ZMod 2) (Ξ : Amp), C.foldl (fun Φ e => swapIn e.1 (j e.1) (y2 e.1) (G e Φ))
      (A.foldl (fun Φ a => swapIn a (x a) (y a) Φ) (U (zeroed A Ξ))) =
      if ∀ a ∈ A, y a = j a then beside A y2 fun z => f j z * Pr x Ξ (s j z) else fun _ => 0 := by
    intro x y j y2 Ξ
    funext z
    have h1 : ∀ z, A.foldl (fun Φ a => swapIn a (x a) (y a) Φ) (U (zeroed A Ξ)) z = if ∀ a ∈ A, z a = y a then Pr x Ξ (setOn A (fun _ => 0) z) else 0 := by
      intro z
      rw [swapAll_eq x y hA]
      have := congrFun (hU x Ξ) (setOn A (fun _ => 0) z)
      rw [resets_eq x hA] at this
      unfold zeroed at this
      have hz : ∀ a ∈ A, setOn A (fun _ => 0) z a = 0 := fun a ha => by unfold setOn; rw [if_pos ha]
      rw [if_pos hz, if_pos hz] at this
      rw [← this]
      refine if_congr Iff.rfl (congrArg _ ?_) rfl
      exact (setOn_setOn A x (fun _ => 0) z).symm
    rw [hfold, hover, h1]
    simp only [hmem]
    have h2 : (∀ a ∈ A, setOn A j (s j z) a = y a) ↔ ∀ a ∈ A, y a = j a := forall₂_congr fun a ha => by
      unfold setOn; rw [if_pos ha]; exact eq_comm
    rw [if_congr h2 rfl rfl, setOn_setOn]
    unfold beside
    by_cases hj : ∀ a ∈ A, y a = j a
    · rw [if_pos hj, if_pos hj]
      dsimp only
      rw [hf, hs]
    · rw [if_neg hj, if_neg hj]; simp
  rw [densActs_append, densActs_append, evolveDens_append, evolveDens_append]
  have e1 : ∀ {w w' : Int → Nat}, Good w → Good w' → evolveDens (densActs ctr (n + 1) (A.flatMap fun q => [(placeHolder, [q]), (traceState, [q])]))
      (evolveDens (densActs ctr (n + 1) P) (rk (zeroed A Ξ) (zeroed A Ξ'))) w w' = sumOver bits A (fun x => sumOver bits A (fun y =>
        rk (A.foldl (fun Φ a => swapIn a (bitsOf x a) (bitsOf y a) Φ) (U (zeroed A Ξ)))
          (A.foldl (fun Φ a => swapIn a (bitsOf x a) (bitsOf y a) Φ) (U (zeroed A Ξ'))) w w') fun _ => 0) fun _ => 0 := by
    intro w w' hw hw'
    rw [evolveDens_good (fun w w' hw hw' => hP _ _ hw hw') hw hw']
    have := block_two (ctr := ctr) (n := n + 1) (l := A) (ops := fun q => [(placeHolder, [q]), (traceState, [q])]) (name := fun q => q)
      (V := fun a b y => swapIn a (b : ZMod 2) (y : ZMod 2)) (fun a _ Φ Ψ c c' w w' hw hw' => holder_acts n a Φ Ψ c c' hw hw') (by simpa using hA)
      (U (zeroed A Ξ)) (U (zeroed A Ξ')) (fun _ => 0) (fun _ => 0) hw hw'
    rw [List.map_id'] at this
    exact this
  rw [evolveDens_good (fun w w' hw hw' => e1 hw hw') hw hw', evolveDens_sum _ _ (fun x w w' => sumOver bits A (fun y =>
        rk (A.foldl (fun Φ a => swapIn a (bitsOf x a) (bitsOf y a) Φ) (U (zeroed A Ξ)))
          (A.foldl (fun Φ a => swapIn a (bitsOf x a) (bitsOf y a) Φ) (U (zeroed A Ξ'))) w w') fun _ => 0)]
  refine sumOver_congr fun x => ?_
  rw [evolveDens_sum _ _ (fun y => rk (A.foldl (fun Φ a => swapIn a (bitsOf x a) (bitsOf y a) Φ) (U (zeroed A Ξ)))
          (A.foldl (fun Φ a => swapIn a (bitsOf x a) (bitsOf y a) Φ) (U (zeroed A Ξ'))))]
  have e2 : ∀ (Φ Ψ : Amp), evolveDens (densActs ctr (n + 1) (correctOps g C)) (rk Φ Ψ) w w' = sumOver bits A (fun j => sumOver bits A (fun y2 =>
      rk (C.foldl (fun Φ e => swapIn e.1 (bitsOf j e.1) (bitsOf y2 e.1) (G e Φ)) Φ) (C.foldl (fun Φ e => swapIn e.1 (bitsOf j e.1) (bitsOf y2 e.1) (G e Φ)) Ψ) w w')
      fun _ => 0) fun _ => 0 := by
    intro Φ Ψ
    have := block_two (ctr := ctr) (n := n + 1) (l := C) (ops := fun e => [(g, [e.1, e.2]), (traceOp, [e.1]), (traceState, [e.1])]) (name := Prod.fst)
      (V := fun e b y Φ => swapIn e.1 (b : ZMod 2) (y : ZMod 2) (G e Φ)) (fun e he Φ Ψ c c' w w' hw hw' => by
        rw [← refresh_acts (ctr := ctr) n e.1 (G e Φ) (G e Ψ) c c' hw hw']
        have ha : densActs ctr (n + 1) [(g, [e.1, e.2]), (traceOp, [e.1]), (traceState, [e.1])] =
          densActs ctr (n + 1) [(g, [e.1, e.2])] ++ densActs ctr (n + 1) [(traceOp, [e.1]), (traceState, [e.1])] := rfl
        rw [ha, evolveDens_append]
        exact evolveDens_good (fun w w' hw hw' => hG e he Φ Ψ hw hw') hw hw') (hC.nodup_iff.2 hA) Φ Ψ (fun _ => 0) (fun _ => 0) hw hw'
    refine this.trans ?_
    rw [sumOver_perm hC]
    exact sumOver_congr fun j => sumOver_perm hC _ _
  simp only [e2, key]
  rw [sumOver_comm]
  refine sumOver_congr_reach fun j hj => ?_
  rw [sumOver_comm]
  refine sumOver_congr_reach fun y2 _ => ?_
  have hjg := reach_good hj
  refine Eq.trans (sumOver_congr_reach fun y hy => ?_) (sumOver_delta hA (j := j) (fun a _ => hjg a) _ _)
  have hyg := reach_good hy
  have hi : (∀ a ∈ A, bitsOf y a = bitsOf j a) ↔ ∀ a ∈ A, y a = j a := forall₂_congr fun a _ => cast_two (hyg a) (hjg a)
  by_cases h : ∀ a ∈ A, y a = j a
  · rw [if_pos h, if_pos (hi.2 h), if_pos (hi.2 h)]
  · rw [if_neg h, if_neg (fun h' => h (hi.1 h')), if_neg (fun h' => h (hi.1 h'))]
    unfold rk lift; simp

/-! ## The demo -/

/-- The projectors of the X stabilizers, with outcomes `x`. -/
noncomputable def xProjs (enc : Int × Int → Int) (x : Int → ZMod 2) (Φ : Amp) : Amp :=
  (inGroups demoCoords [.X1, .X2]).foldl (fun Φ a => xproj (x (enc a)) ((demoCoords.filter (adjacent a)).map enc) Φ) Φ

/-- The projectors of the Z stabilizers, with outcomes `x`. -/
noncomputable def zProjs (enc : Int × Int → Int) (x : Int → ZMod 2) (Φ : Amp) : Amp :=
  (inGroups demoCoords [.Z1, .Z2]).foldl (fun Φ a => zproj (x (enc a)) ((demoCoords.filter (adjacent a)).map enc) Φ) Φ

/-- One branch of the measurement: the outcomes `x`, `x'` of the X and Z stabilizers, with the corrections `j`, `j'`. -/
noncomputable def branch (enc : Int × Int → Int) (x j x' j' : Int → ZMod 2) (Φ : Amp) : Amp :=
  xCorrect enc finalCnot (fun a => j' (enc a)) (zProjs enc x' (zCorrect enc finalCz (fun a => j (enc a)) (xProjs enc x Φ)))

/-- The X ancillas. -/
def ancX (enc : Int × Int → Int) : List Int := (inGroups demoCoords [.X1, .X2]).map enc

/-- The Z ancillas. -/
def ancZ (enc : Int × Int → Int) : List Int := (inGroups demoCoords [.Z1, .Z2]).map enc

/-- All ancillas. -/
def ancAll (enc : Int × Int → Int) : List Int := finalAnc.map enc

theorem anc_facts : (∀ a, a ∈ finalAnc ↔ a ∈ inGroups demoCoords [.X1, .X2] ∨ a ∈ inGroups demoCoords [.Z1, .Z2]) ∧
    (∀ a ∈ inGroups demoCoords [.X1, .X2], a ∉ inGroups demoCoords [.Z1, .Z2]) ∧
    (∀ a ∈ finalAnc, ∀ d ∈ demoCoords.filter (adjacent a), d ∉ finalAnc) ∧
    (∀ e ∈ finalCz, e.1 ∈ inGroups demoCoords [.X1, .X2] ∧ e.2 ∉ finalAnc) ∧
    (∀ e ∈ finalCnot, e.1 ∈ inGroups demoCoords [.Z1, .Z2] ∧ e.2 ∉ finalAnc) ∧
    (finalCz.map Prod.fst).Perm (inGroups demoCoords [.X1, .X2]) ∧ (finalCnot.map Prod.fst).Perm (inGroups demoCoords [.Z1, .Z2]) ∧ finalAnc.Nodup := by
  have h0 : finalAnc.Perm (inGroups demoCoords [.X1, .X2] ++ inGroups demoCoords [.Z1, .Z2]) := by decide +kernel
  exact ⟨fun a => h0.mem_iff.trans List.mem_append, by decide +kernel, by decide +kernel, by decide +kernel, by decide +kernel, by decide +kernel,
    by decide +kernel, by decide +kernel⟩

theorem anc_all {enc : Int × Int → Int} (q : Int) : q ∈ ancAll enc ↔ q ∈ ancX enc ∨ q ∈ ancZ enc := by
  unfold ancAll ancX ancZ
  simp only [List.mem_map, anc_facts.1]
  constructor
  · rintro ⟨a, h | h, rfl⟩
    · exact Or.inl ⟨a, h, rfl⟩
    · exact Or.inr ⟨a, h, rfl⟩
  · rintro (⟨a, h, rfl⟩ | ⟨a, h, rfl⟩)
    · exact ⟨a, Or.inl h, rfl⟩
    · exact ⟨a, Or.inr h, rfl⟩

theorem anc_disj {enc : Int × Int → Int} (he : Function.Injective enc) {q : Int} (h : q ∈ ancX enc) : q ∉ ancZ enc := by
  intro h'
  obtain ⟨a, ha, rfl⟩ := List.mem_map.1 h
  exact anc_facts.2.1 a ha ((List.mem_map_of_injective he).1 h')

theorem ancX_nodup {enc : Int × Int → Int} (he : Function.Injective enc) : (ancX enc).Nodup :=
  (inGroups_nodup demoCoords_nodup (l := [Grp.X1, .X2]) (by decide)).map he

theorem ancZ_nodup {enc : Int × Int → Int} (he : Function.Injective enc) : (ancZ enc).Nodup :=
  (inGroups_nodup demoCoords_nodup (l := [Grp.Z1, .Z2]) (by decide)).map he

theorem nbr_off {enc : Int × Int → Int} (he : Function.Injective enc) {a : Int × Int} (ha : a ∈ finalAnc) :
    ∀ d ∈ (demoCoords.filter (adjacent a)).map enc, d ∉ ancAll enc := by
  intro d hd h
  obtain ⟨d, hd1, rfl⟩ := List.mem_map.1 hd
  exact anc_facts.2.2.1 a ha d hd1 ((List.mem_map_of_injective he).1 h)

theorem gate_acts {n : Nat} {g : Oper ℂ} {G : Amp → Amp} {qs : List Int}
    (hp : Act.Paired (actAt ctr (n + 1) g qs) ⟨matrix ctr (n + 1) g, inQubits (shapeD (shapes ctr (n + 1)) g) qs, outQubits (shapeD (shapes ctr (n + 1)) g) qs⟩)
    (h : ∀ (Φ : Amp) {w : Int → Nat}, Good w → Act.apply ⟨matrix ctr (n + 1) g, inQubits (shapeD (shapes ctr (n + 1)) g) qs,
      outQubits (shapeD (shapes ctr (n + 1)) g) qs⟩ (lift Φ) w = lift (G Φ) w)
    (Φ Ψ : Amp) {w w' : Int → Nat} (hw : Good w) (hw' : Good w') : evolveDens (densActs ctr (n + 1) [(g, qs)]) (rk Φ Ψ) w w' = rk (G Φ) (G Ψ) w w' :=
  pure_acts (l := [(g, qs)]) (List.Forall₂.cons hp .nil) (fun Φ _ hw => h Φ hw) Φ Ψ hw hw'

theorem groups_split (enc : Int × Int → Int) (coords : List (Int × Int)) : (inGroups coords [.D1, .D2, .D3, .D4, .X1, .X2]).map enc =
    (inGroups coords [.D1, .D2, .D3, .D4]).map enc ++ (inGroups coords [.X1, .X2]).map enc := by
  simp [inGroups]

theorem cz_pairs {enc : Int × Int → Int} (he : Function.Injective enc) : ((finalCz.map fun e => (enc e.1, enc e.2)).map Prod.fst).Perm (ancX enc) ∧
    ∀ e ∈ finalCz.map (fun e => (enc e.1, enc e.2)), e.1 ∈ ancX enc ∧ e.2 ∉ ancX enc := by
  constructor
  · have := anc_facts.2.2.2.2.2.1.map enc
    rw [List.map_map] at this ⊢
    exact this
  · intro e hm
    obtain ⟨e, h1, rfl⟩ := List.mem_map.1 hm
    refine ⟨List.mem_map_of_mem (anc_facts.2.2.2.1 e h1).1, fun h => (anc_facts.2.2.2.1 e h1).2 ?_⟩
    exact (anc_facts.1 _).2 (Or.inl ((List.mem_map_of_injective he).1 h))

theorem x_gates {enc : Int × Int → Int} (he : Function.Injective enc) (s : Int → ZMod 2) (Ξ : Amp) :
    resets s (ancX enc) (hs ((inGroups demoCoords [.D1, .D2, .D3, .D4, .X1, .X2]).map enc) (czs ((xDance.flatMap (slotPairs demoCoords)).map fun e => (enc e.1, enc e.2))
      (hs ((inGroups demoCoords [.D1, .D2, .D3, .D4, .X1, .X2]).map enc) (zeroed (ancX enc) Ξ)))) = zeroed (ancX enc) (xProjs enc s Ξ) := by
  have hl : ∀ g ∈ [Grp.X1, .X2], g ∈ [Grp.X1, .X2, .Z1, .Z2] := by decide
  have hp : ((xDance.flatMap (slotPairs demoCoords)).map orient).Perm (edges (inGroups demoCoords [.X1, .X2]) demoCoords) := c67_x_pairs demoCoords_nodup
  have hE := enc_edges he hl hp
  have hn := inGroups_nodup demoCoords_nodup (l := [Grp.X1, .X2]) (by decide)
  have hd := inGroups_nodup demoCoords_nodup (l := [Grp.D1, .D2, .D3, .D4]) (by decide)
  rw [czs_orient, groups_split]
  refine (stab_x (hd.map he) (hn.map he) ?_ hE.1 s Ξ).trans ?_
  · intro d hd0 h
    obtain ⟨d, hd, rfl⟩ := List.mem_map.1 hd0
    obtain ⟨a, ha, ha'⟩ := List.mem_map.1 h
    exact data_not_anc hl hd (he ha' ▸ ha)
  · rw [List.foldl_map]
    refine congrArg (zeroed _) (List.foldl_ext _ _ _ fun Φ a ha => ?_)
    rw [xproj_perm (nb_perm (hp.map _) _), nb_edges he hn ha]

theorem stage_cz {n : Nat} {l A : List Int} {E C : List (Int × Int)} (hE : ∀ e ∈ E, e.1 ≠ e.2) (hn : A.Nodup) {Pr : (Int → ZMod 2) → Amp → Amp}
    (hU : ∀ s Ξ, resets s A (hs l (czs E (hs l (zeroed A Ξ)))) = zeroed A (Pr s Ξ)) (hperm : (C.map Prod.fst).Perm A) (hC : ∀ e ∈ C, e.1 ∈ A ∧ e.2 ∉ A)
    (Ξ Ξ' : Amp) {w w' : Int → Nat} (hw : Good w) (hw' : Good w') :
    evolveDens (densActs ctr (n + 1) (stabOpsNd l E A ++ correctOps czOp C)) (rk (zeroed A Ξ) (zeroed A Ξ')) w w' =
      sumOver bits A (fun x => sumOver bits A (fun j => sumOver bits A (fun y =>
        rk (beside A (bitsOf y) fun z => sgn (C.map fun e => bitsOf j e.1 * z e.2).sum * Pr (bitsOf x) Ξ z)
          (beside A (bitsOf y) fun z => sgn (C.map fun e => bitsOf j e.1 * z e.2).sum * Pr (bitsOf x) Ξ' z) w w') fun _ => 0) fun _ => 0) fun _ => 0 := by
  unfold stabOpsNd
  refine (stage (ctr := ctr) (n := n) (P := l.map (fun q => (hGateOp, [q])) ++ E.map (fun e => (czOp, [e.1, e.2])) ++ l.map (fun q => (hGateOp, [q])))
    (U := fun Φ => hs l (czs E (hs l Φ))) ?_ hn (Pr := fun s Φ => Pr s Φ) hU hperm (g := czOp) (G := czop) ?_
    (f := fun x z => sgn (C.map fun e => x e.1 * z e.2).sum) (s := fun _ z => z) ?_ ?_ ?_ Ξ Ξ' hw hw').trans (by rfl)
  · intro Φ Ψ w w' hw hw'
    exact gates_acts n hE Φ Ψ hw hw'
  · intro e hm Φ Ψ w w' hw hw'
    have hne : e.1 ≠ e.2 := fun h => (hC e hm).2 (h ▸ (hC e hm).1)
    exact gate_acts (paired_cz n _) (fun Φ w hw => cz_act n hne Φ hw) Φ Ψ hw hw'
  · exact fun x y Φ z => cz_fold x y (hperm.nodup_iff.2 hn) hC Φ z
  · intro x z
    refine congrArg (fun l : List (ZMod 2) => sgn l.sum) (List.map_congr_left fun e hm => ?_)
    unfold setOn
    rw [if_neg (hC e hm).2]
  · exact fun _ _ => rfl

theorem stage_x {enc : Int × Int → Int} (he : Function.Injective enc) (n : Nat) (Ξ Ξ' : Amp) {w w' : Int → Nat} (hw : Good w) (hw' : Good w') :
    evolveDens (densActs ctr (n + 1) (xOpsNd enc demoCoords ++ correctOps czOp (finalCz.map fun e => (enc e.1, enc e.2)))) (rk (zeroed (ancX enc) Ξ) (zeroed (ancX enc) Ξ')) w w' =
      sumOver bits (ancX enc) (fun x => sumOver bits (ancX enc) (fun j => sumOver bits (ancX enc) (fun y =>
        rk (beside (ancX enc) (bitsOf y) (zCorrect enc finalCz (fun a => bitsOf j (enc a)) (xProjs enc (bitsOf x) Ξ)))
          (beside (ancX enc) (bitsOf y) (zCorrect enc finalCz (fun a => bitsOf j (enc a)) (xProjs enc (bitsOf x) Ξ'))) w w') fun _ => 0) fun _ => 0) fun _ => 0 := by
  have hp : ((xDance.flatMap (slotPairs demoCoords)).map orient).Perm (edges (inGroups demoCoords [.X1, .X2]) demoCoords) := c67_x_pairs demoCoords_nodup
  have hE := (enc_edges he (l := [Grp.X1, .X2]) (by decide) hp).2
  obtain ⟨hperm, hC⟩ := cz_pairs he
  have hz : ∀ (j : Int → ZMod 2) (Φ : Amp), (fun z => sgn ((finalCz.map fun e => (enc e.1, enc e.2)).map fun e => j e.1 * z e.2).sum * Φ z) =
      zCorrect enc finalCz (fun a => j (enc a)) Φ := by
    intro j Φ
    funext z
    unfold zCorrect sgn
    rw [List.map_map]
    exact congrArg (· * Φ z) (if_congr Iff.rfl rfl rfl)
  have key := stage_cz (ctr := ctr) (n := n) hE (ancX_nodup he) (x_gates he) hperm hC Ξ Ξ' hw hw'
  simp only [hz] at key
  exact key

theorem stage_z {enc : Int × Int → Int} (he : Function.Injective enc) (n : Nat) (Ξ Ξ' : Amp) {w w' : Int → Nat} (hw : Good w) (hw' : Good w') :
    evolveDens (densActs ctr (n + 1) (zOpsNd enc demoCoords ++ correctOps cnotOp (finalCnot.map fun e => (enc e.1, enc e.2)))) (rk (zeroed (ancZ enc) Ξ) (zeroed (ancZ enc) Ξ')) w w' =
      sumOver bits (ancZ enc) (fun x => sumOver bits (ancZ enc) (fun j => sumOver bits (ancZ enc) (fun y =>
        rk (beside (ancZ enc) (bitsOf y) (xCorrect enc finalCnot (fun a => bitsOf j (enc a)) (zProjs enc (bitsOf x) Ξ)))
          (beside (ancZ enc) (bitsOf y) (xCorrect enc finalCnot (fun a => bitsOf j (enc a)) (zProjs enc (bitsOf x) Ξ'))) w w') fun _ => 0) fun _ => 0) fun _ => 0 := by
  have hl : ∀ g ∈ [Grp.Z1, .Z2], g ∈ [Grp.X1, .X2, .Z1, .Z2] := by decide
  have hp : ((zDance.flatMap (slotPairs demoCoords)).map orient).Perm (edges (inGroups demoCoords [.Z1, .Z2]) demoCoords) := c67_z_pairs demoCoords_nodup
  have hE := enc_edges he hl hp
  have hn := inGroups_nodup demoCoords_nodup (l := [Grp.Z1, .Z2]) (by decide)
  have hC : ∀ e ∈ finalCnot.map (fun e => (enc e.1, enc e.2)), e.1 ∈ ancZ enc ∧ e.2 ∉ ancZ enc := by
    intro e hm
    obtain ⟨e, h1, rfl⟩ := List.mem_map.1 hm
    refine ⟨List.mem_map_of_mem (anc_facts.2.2.2.2.1 e h1).1, fun h => (anc_facts.2.2.2.2.1 e h1).2 ?_⟩
    exact (anc_facts.1 _).2 (Or.inr ((List.mem_map_of_injective he).1 h))
  have hperm : ((finalCnot.map fun e => (enc e.1, enc e.2)).map Prod.fst).Perm (ancZ enc) := by
    have := anc_facts.2.2.2.2.2.2.1.map enc
    rw [List.map_map] at this ⊢
    exact this
  have key := stage (ctr := ctr) (n := n) (P := _) (U := _) (fun Φ Ψ w w' hw hw' => gates_acts n (l := (inGroups demoCoords [.Z1, .Z2]).map enc) hE.2 Φ Ψ hw hw')
    (ancZ_nodup he) (Pr := fun s Φ => zProjs enc s Φ) (fun s Ξ => by
      rw [czs_orient]
      refine (stab_z (hn.map he) ?_ s Ξ).trans ?_
      · intro e hm
        refine ⟨(hE.1 e hm).1, fun h => ?_⟩
        obtain ⟨d, hd, hd'⟩ := List.mem_map.1 (hE.1 e hm).2
        obtain ⟨a, ha, ha'⟩ := List.mem_map.1 h
        exact data_not_anc hl hd (he (ha'.trans hd'.symm) ▸ ha)
      · rw [List.foldl_map]
        refine congrArg (zeroed _) (List.foldl_ext _ _ _ fun Φ a ha => ?_)
        rw [zproj_perm (nb_perm (hp.map _) _), nb_edges he hn ha])
    hperm (g := cnotOp) (G := fun e => cnop (e.2, e.1)) (fun e hm Φ Ψ w w' hw hw' => gate_acts (paired_cnot n _) (fun Φ w hw =>
      cnot_act n (fun h : e.1 = e.2 => (hC e hm).2 (h ▸ (hC e hm).1)) Φ hw) Φ Ψ hw hw')
    (f := fun _ _ => 1) (s := fun x z => shiftBy (finalCnot.map fun e => (enc e.1, enc e.2)) x z)
    (fun x y Φ z => by
      rw [one_mul]
      exact cnot_fold x y (hperm.nodup_iff.2 (ancZ_nodup he)) hC Φ z)
    (fun _ _ => rfl) (fun x z => by
      funext q
      unfold setOn
      by_cases hq : q ∈ ancZ enc
      · rw [shiftBy_off (fun e hm h => (hC e hm).2 (h ▸ hq)), if_pos hq, if_pos hq]
      · unfold shiftBy
        beta_reduce
        rw [if_neg hq, if_neg hq]) Ξ Ξ' hw hw'
  unfold zOpsNd stabOpsNd
  refine key.trans ?_
  · have hz : ∀ (j : Int → ZMod 2) (Φ : Amp), (fun z => 1 * Φ (shiftBy (finalCnot.map fun e => (enc e.1, enc e.2)) j z)) =
        xCorrect enc finalCnot (fun a => j (enc a)) Φ := by
      intro j Φ
      funext z
      rw [one_mul]
      unfold shiftBy xCorrect
      simp only [List.map_map]
      rfl
    simp only [hz]

theorem xProjs_zeroed {enc : Int × Int → Int} (he : Function.Injective enc) (x : Int → ZMod 2) (Φ : Amp) :
    xProjs enc x (zeroed (ancZ enc) Φ) = zeroed (ancZ enc) (xProjs enc x Φ) := by
  unfold xProjs
  have h : ∀ a ∈ inGroups demoCoords [.X1, .X2], ∀ d ∈ (demoCoords.filter (adjacent a)).map enc, d ∉ ancZ enc := fun a ha d hd hz =>
    nbr_off he ((anc_facts.1 a).2 (Or.inl ha)) d hd ((anc_all d).2 (Or.inr hz))
  generalize inGroups demoCoords [.X1, .X2] = l at h
  induction l generalizing Φ with
  | nil => rfl
  | cons a l ih =>
    rw [List.foldl_cons, List.foldl_cons, xproj_zeroed (h a List.mem_cons_self), ih _ fun a ha => h a (List.mem_cons_of_mem _ ha)]

theorem zCorrect_zeroed {enc : Int × Int → Int} (C : List ((Int × Int) × (Int × Int))) (j : Int × Int → ZMod 2) (l : List Int) (Φ : Amp) :
    zCorrect enc C j (zeroed l Φ) = zeroed l (zCorrect enc C j Φ) := by
  funext z
  unfold zCorrect zeroed
  by_cases h : ∀ a ∈ l, z a = 0
  · rw [if_pos h, if_pos h]
  · rw [if_neg h, if_neg h, mul_zero]

theorem beside_zeroed {A B : List Int} (h : ∀ b ∈ B, b ∉ A) (y : Int → ZMod 2) (Φ : Amp) : beside A y (zeroed B Φ) = zeroed B (beside A y Φ) := by
  funext z
  unfold beside zeroed
  have : (∀ b ∈ B, setOn A (fun _ => 0) z b = 0) ↔ ∀ b ∈ B, z b = 0 := forall₂_congr fun b hb => by unfold setOn; rw [if_neg (h b hb)]
  rw [if_congr this rfl rfl]
  beta_reduce
  by_cases h1 : ∀ a ∈ A, z a = y a
  · rw [if_pos h1, if_pos h1]
  · rw [if_neg h1, if_neg h1, ite_self]

/-- The Z measurement does not read the X ancillas. -/
theorem z_beside {enc : Int × Int → Int} (he : Function.Injective enc) (y y' x' j' : Int → ZMod 2) (Φ : Amp) :
    beside (ancZ enc) y' (xCorrect enc finalCnot (fun a => j' (enc a)) (zProjs enc x' (beside (ancX enc) y Φ))) = fun z =>
      if (∀ a ∈ ancX enc, z a = y a) ∧ ∀ a ∈ ancZ enc, z a = y' a then
        xCorrect enc finalCnot (fun a => j' (enc a)) (zProjs enc x' Φ) (setOn (ancAll enc) (fun _ => 0) z) else 0 := by
  funext z
  have hsh : ∀ q ∈ ancAll enc, (finalCnot.map fun e => if enc e.2 = q then j' (enc e.1) else 0).sum = 0 := by
    intro q hq
    have : (finalCnot.map fun e => if enc e.2 = q then j' (enc e.1) else 0) = finalCnot.map fun _ => 0 :=
      List.map_congr_left fun e hm => if_neg fun h : enc e.2 = q => (anc_facts.2.2.2.2.1 e hm).2 ((List.mem_map_of_injective he).1 (h.symm ▸ hq))
    rw [this]
    simp
  unfold beside xCorrect zProjs
  simp only [zprojs_eq]
  have h1 : (∀ a ∈ ancX enc, setOn (ancZ enc) (fun _ => 0) z a + (finalCnot.map fun e => if enc e.2 = a then j' (enc e.1) else 0).sum = y a) ↔
      ∀ a ∈ ancX enc, z a = y a := forall₂_congr fun a ha => by
    unfold setOn
    rw [hsh a ((anc_all a).2 (Or.inl ha)), if_neg (anc_disj he ha), add_zero]
  have h2 : setOn (ancX enc) (fun _ => 0) (fun q => setOn (ancZ enc) (fun _ => 0) z q + (finalCnot.map fun e => if enc e.2 = q then j' (enc e.1) else 0).sum) =
      fun q => setOn (ancAll enc) (fun _ => 0) z q + (finalCnot.map fun e => if enc e.2 = q then j' (enc e.1) else 0).sum := by
    funext q
    unfold setOn
    by_cases hx : q ∈ ancX enc
    · have := (anc_all q).2 (Or.inl hx)
      rw [if_pos hx, if_pos this, hsh q this, add_zero]
    · rw [if_neg hx]
      beta_reduce
      by_cases hz : q ∈ ancZ enc
      · rw [if_pos hz, if_pos ((anc_all q).2 (Or.inr hz))]
      · rw [if_neg hz, if_neg (fun h => ((anc_all q).1 h).elim hx hz)]
  have h3 : (∀ a ∈ inGroups demoCoords [.Z1, .Z2], x' (enc a) + (((demoCoords.filter (adjacent a)).map enc).map fun q => setOn (ancZ enc) (fun _ => 0) z q +
        (finalCnot.map fun e => if enc e.2 = q then j' (enc e.1) else 0).sum).sum = 0) ↔
      ∀ a ∈ inGroups demoCoords [.Z1, .Z2], x' (enc a) + (((demoCoords.filter (adjacent a)).map enc).map fun q => setOn (ancAll enc) (fun _ => 0) z q +
        (finalCnot.map fun e => if enc e.2 = q then j' (enc e.1) else 0).sum).sum = 0 := forall₂_congr fun a ha => by
    have : (((demoCoords.filter (adjacent a)).map enc).map fun q => setOn (ancZ enc) (fun _ => 0) z q +
        (finalCnot.map fun e => if enc e.2 = q then j' (enc e.1) else 0).sum) = ((demoCoords.filter (adjacent a)).map enc).map fun q => setOn (ancAll enc) (fun _ => 0) z q +
        (finalCnot.map fun e => if enc e.2 = q then j' (enc e.1) else 0).sum := List.map_congr_left fun d hd => by
      have hn := nbr_off he ((anc_facts.1 a).2 (Or.inr ha)) d hd
      unfold setOn
      rw [if_neg hn, if_neg fun h => hn ((anc_all d).2 (Or.inr h))]
    rw [this]
  rw [if_congr h3 rfl rfl, if_congr h1 rfl rfl, h2]
  by_cases c1 : ∀ a ∈ ancX enc, z a = y a
  · by_cases c2 : ∀ a ∈ ancZ enc, z a = y' a
    · rw [if_pos c1, if_pos c2, if_pos (⟨c1, c2⟩ : _ ∧ _)]
    · rw [if_neg c2, if_neg fun h : _ ∧ _ => c2 h.2]
  · rw [if_neg c1, ite_self, ite_self, if_neg fun h : _ ∧ _ => c1 h.1]

/-- The state of one branch, ancillas in state 0. -/
noncomputable def outcome (enc : Int × Int → Int) (x j x' j' : Int → ZMod 2) (Φ : Amp) : Amp := fun z =>
  branch enc x j x' j' Φ (setOn (ancAll enc) (fun _ => 0) z)

/-- The density matrix of a pair of states after `final_measurement`. -/
theorem final_acts {enc : Int × Int → Int} (he : Function.Injective enc) (n : Nat) (Φ Ψ : Amp) {w w' : Int → Nat} (hw : Good w) (hw' : Good w') :
    evolveDens (densActs ctr (n + 1) (finalOps enc)) (rk Φ Ψ) w w' = if ∀ a ∈ ancAll enc, w a = w' a then
      sumOver bits (ancAll enc) (fun t => sumOver bits (ancX enc) (fun x => sumOver bits (ancX enc) (fun j => sumOver bits (ancZ enc) (fun x' => sumOver bits (ancZ enc) (fun j' =>
        rk (outcome enc (bitsOf x) (bitsOf j) (bitsOf x') (bitsOf j') fun z => Φ (setOn (ancAll enc) (bitsOf t) z))
          (outcome enc (bitsOf x) (bitsOf j) (bitsOf x') (bitsOf j') fun z => Ψ (setOn (ancAll enc) (bitsOf t) z)) w w')
        fun _ => 0) fun _ => 0) fun _ => 0) fun _ => 0) fun _ => 0 else 0 := by
  classical
  have hnd : (ancAll enc).Nodup := anc_facts.2.2.2.2.2.2.2.map he
  have hassoc : finalOps enc = (clearOps (ancAll enc) ++ (xOpsNd enc demoCoords ++ correctOps czOp (finalCz.map fun e => (enc e.1, enc e.2)))) ++
      (zOpsNd enc demoCoords ++ correctOps cnotOp (finalCnot.map fun e => (enc e.1, enc e.2))) := by
    unfold finalOps ancAll
    simp only [List.append_assoc]
  -- the ancillas are cleared
  have e1 : ∀ {w w' : Int → Nat}, Good w → Good w' → evolveDens (densActs ctr (n + 1) (clearOps (ancAll enc))) (rk Φ Ψ) w w' =
      sumOver bits (ancAll enc) (fun t => rk (zeroed (ancX enc) (zeroed (ancZ enc) fun z => Φ (setOn (ancAll enc) (bitsOf t) z)))
        (zeroed (ancX enc) (zeroed (ancZ enc) fun z => Ψ (setOn (ancAll enc) (bitsOf t) z))) w w') fun _ => 0 := by
    intro w w' hw hw'
    have hz : ∀ (t : Int → ZMod 2) (Φ : Amp), (ancAll enc).foldl (fun Φ a => swapIn a (t a) 0 Φ) Φ =
        zeroed (ancX enc) (zeroed (ancZ enc) fun z => Φ (setOn (ancAll enc) t z)) := by
      intro t Φ
      funext z
      rw [swapAll_eq t (fun _ => 0) hnd]
      unfold zeroed
      have : (∀ a ∈ ancAll enc, z a = 0) ↔ (∀ a ∈ ancX enc, z a = 0) ∧ ∀ a ∈ ancZ enc, z a = 0 := by
        constructor
        · exact fun h => ⟨fun a ha => h a ((anc_all a).2 (Or.inl ha)), fun a ha => h a ((anc_all a).2 (Or.inr ha))⟩
        · exact fun h a ha => ((anc_all a).1 ha).elim (h.1 a) (h.2 a)
      rw [if_congr this rfl rfl]
      exact ite_and _ _ _ _
    have := block_one (ctr := ctr) (n := n + 1) (l := ancAll enc) (ops := fun q => [(traceOp, [q]), (zeroState, [q])]) (name := fun q => q)
      (V := fun a b => swapIn a (b : ZMod 2) 0) (fun a _ Φ Ψ c w w' hw hw' => clear_acts n a Φ Ψ c hw hw') (by simpa using hnd) Φ Ψ (fun _ => 0) hw hw'
    rw [List.map_id'] at this
    refine this.trans (sumOver_congr fun t => ?_)
    rw [← hz, ← hz]
    rfl
  rw [hassoc, densActs_append, densActs_append, evolveDens_append, evolveDens_append]
  -- the X measurement
  have e2 : ∀ {w w' : Int → Nat}, Good w → Good w' →
      evolveDens (densActs ctr (n + 1) (xOpsNd enc demoCoords ++ correctOps czOp (finalCz.map fun e => (enc e.1, enc e.2))))
        (evolveDens (densActs ctr (n + 1) (clearOps (ancAll enc))) (rk Φ Ψ)) w w' =
      sumOver bits (ancAll enc) (fun t => sumOver bits (ancX enc) (fun x => sumOver bits (ancX enc) (fun j => sumOver bits (ancX enc) (fun y =>
        rk (zeroed (ancZ enc) (beside (ancX enc) (bitsOf y) (zCorrect enc finalCz (fun a => bitsOf j (enc a)) (xProjs enc (bitsOf x) fun z => Φ (setOn (ancAll enc) (bitsOf t) z)))))
          (zeroed (ancZ enc) (beside (ancX enc) (bitsOf y) (zCorrect enc finalCz (fun a => bitsOf j (enc a)) (xProjs enc (bitsOf x) fun z => Ψ (setOn (ancAll enc) (bitsOf t) z)))))
          w w') fun _ => 0) fun _ => 0) fun _ => 0) fun _ => 0 := by
    intro w w' hw hw'
    rw [evolveDens_good (fun w w' hw hw' => e1 hw hw') hw hw', evolveDens_sum _ _ (fun t => rk (zeroed (ancX enc) (zeroed (ancZ enc) fun z => Φ (setOn (ancAll enc) (bitsOf t) z)))
        (zeroed (ancX enc) (zeroed (ancZ enc) fun z => Ψ (setOn (ancAll enc) (bitsOf t) z))))]
    refine sumOver_congr fun t => ?_
    rw [stage_x he n _ _ hw hw']
    have hd : ∀ b ∈ ancZ enc, b ∉ ancX enc := fun b hb hx => anc_disj he hx hb
    simp only [xProjs_zeroed he, zCorrect_zeroed, beside_zeroed hd]
  rw [evolveDens_good (fun w w' hw hw' => e2 hw hw') hw hw']
  -- the Z measurement
  have e3 : ∀ (F : (Int → Nat) → (Int → Nat) → (Int → Nat) → (Int → Nat) → Amp) (F' : (Int → Nat) → (Int → Nat) → (Int → Nat) → (Int → Nat) → Amp) (l : List (Act ℂ)),
      evolveDens l (fun w w' => sumOver bits (ancAll enc) (fun t => sumOver bits (ancX enc) (fun x => sumOver bits (ancX enc) (fun j => sumOver bits (ancX enc) (fun y =>
        rk (F t x j y) (F' t x j y) w w') fun _ => 0) fun _ => 0) fun _ => 0) fun _ => 0) w w' =
      sumOver bits (ancAll enc) (fun t => sumOver bits (ancX enc) (fun x => sumOver bits (ancX enc) (fun j => sumOver bits (ancX enc) (fun y =>
        evolveDens l (rk (F t x j y) (F' t x j y)) w w') fun _ => 0) fun _ => 0) fun _ => 0) fun _ => 0 := by
    intro F F' l
    rw [evolveDens_sum l _ (fun t w w' => sumOver bits (ancX enc) (fun x => sumOver bits (ancX enc) (fun j => sumOver bits (ancX enc) (fun y =>
        rk (F t x j y) (F' t x j y) w w') fun _ => 0) fun _ => 0) fun _ => 0)]
    refine sumOver_congr fun t => ?_
    rw [evolveDens_sum l _ (fun x w w' => sumOver bits (ancX enc) (fun j => sumOver bits (ancX enc) (fun y =>
        rk (F t x j y) (F' t x j y) w w') fun _ => 0) fun _ => 0)]
    refine sumOver_congr fun x => ?_
    rw [evolveDens_sum l _ (fun j w w' => sumOver bits (ancX enc) (fun y => rk (F t x j y) (F' t x j y) w w') fun _ => 0)]
    refine sumOver_congr fun j => ?_
    rw [evolveDens_sum l _ (fun y => rk (F t x j y) (F' t x j y))]
  rw [e3]
  simp only [stage_z he n _ _ hw hw', z_beside he]
  -- the sums over the states of the ancillas
  have hA : (∀ a ∈ ancAll enc, w a = w' a) ↔ (∀ a ∈ ancX enc, w a = w' a) ∧ ∀ a ∈ ancZ enc, w a = w' a := by
    constructor
    · exact fun h => ⟨fun a ha => h a ((anc_all a).2 (Or.inl ha)), fun a ha => h a ((anc_all a).2 (Or.inr ha))⟩
    · exact fun h a ha => ((anc_all a).1 ha).elim (h.1 a) (h.2 a)
  have hc : ∀ {l : List Int} {v y : Int → Nat}, Good v → Good y → ((∀ a ∈ l, ((v a : Nat) : ZMod 2) = bitsOf y a) ↔ ∀ a ∈ l, y a = v a) :=
    fun hv hy => forall₂_congr fun a _ => (cast_two (hv a) (hy a)).trans eq_comm
  have e4 : ∀ B B' : Amp, sumOver bits (ancX enc) (fun y => sumOver bits (ancZ enc) (fun y' =>
      rk (fun z => if (∀ a ∈ ancX enc, z a = bitsOf y a) ∧ ∀ a ∈ ancZ enc, z a = bitsOf y' a then B z else 0)
        (fun z => if (∀ a ∈ ancX enc, z a = bitsOf y a) ∧ ∀ a ∈ ancZ enc, z a = bitsOf y' a then B' z else 0) w w') fun _ => 0) (fun _ => 0) =
      if ∀ a ∈ ancAll enc, w a = w' a then rk B B' w w' else 0 := by
    intro B B'
    rw [if_congr hA rfl rfl]
    refine Eq.trans (sumOver_congr_reach fun y hy => ?_) (sumOver_delta (ancX_nodup he) (j := w) (fun a _ => hw a) _ _)
    have hyg := reach_good hy
    have : (if ∀ a ∈ ancX enc, y a = w a then (if (∀ a ∈ ancX enc, w a = w' a) ∧ ∀ a ∈ ancZ enc, w a = w' a then rk B B' w w' else 0) else 0) =
        sumOver bits (ancZ enc) (fun y' => if ∀ a ∈ ancZ enc, y' a = w a then (if ∀ a ∈ ancX enc, y a = w a then
          (if (∀ a ∈ ancX enc, w a = w' a) ∧ ∀ a ∈ ancZ enc, w a = w' a then rk B B' w w' else 0) else 0) else 0) fun _ => 0 :=
      (sumOver_delta (ancZ_nodup he) (j := w) (fun a _ => hw a) _ _).symm
    rw [this]
    refine sumOver_congr_reach fun y' hy' => ?_
    have hyg' := reach_good hy'
    unfold rk lift
    beta_reduce
    simp only [hc hw hyg, hc hw hyg', hc hw' hyg, hc hw' hyg']
    by_cases c1 : ∀ a ∈ ancX enc, y a = w a
    · by_cases c2 : ∀ a ∈ ancZ enc, y' a = w a
      · have d1 : (∀ a ∈ ancX enc, y a = w' a) ↔ ∀ a ∈ ancX enc, w a = w' a := forall₂_congr fun a ha => by rw [c1 a ha]
        have d2 : (∀ a ∈ ancZ enc, y' a = w' a) ↔ ∀ a ∈ ancZ enc, w a = w' a := forall₂_congr fun a ha => by rw [c2 a ha]
        rw [if_pos ⟨c1, c2⟩, if_pos c2, if_pos c1, if_congr (and_congr d1 d2) rfl rfl]
        split <;> simp
      · rw [if_neg fun h => c2 h.2, if_neg c2, zero_mul]
    · rw [if_neg fun h => c1 h.1, if_neg c1, zero_mul, ite_self]
  have e5 : ∀ (B B' : (Int → Nat) → (Int → Nat) → (Int → Nat) → (Int → Nat) → (Int → Nat) → Amp),
      sumOver bits (ancAll enc) (fun t => sumOver bits (ancX enc) (fun x => sumOver bits (ancX enc) (fun j => sumOver bits (ancX enc) (fun y =>
        sumOver bits (ancZ enc) (fun x' => sumOver bits (ancZ enc) (fun j' => sumOver bits (ancZ enc) (fun y' =>
          rk (fun z => if (∀ a ∈ ancX enc, z a = bitsOf y a) ∧ ∀ a ∈ ancZ enc, z a = bitsOf y' a then B t x j x' j' z else 0)
            (fun z => if (∀ a ∈ ancX enc, z a = bitsOf y a) ∧ ∀ a ∈ ancZ enc, z a = bitsOf y' a then B' t x j x' j' z else 0) w w')
          fun _ => 0) fun _ => 0) fun _ => 0) fun _ => 0) fun _ => 0) fun _ => 0) (fun _ => 0) =
      if ∀ a ∈ ancAll enc, w a = w' a then sumOver bits (ancAll enc) (fun t => sumOver bits (ancX enc) (fun x => sumOver bits (ancX enc) (fun j =>
        sumOver bits (ancZ enc) (fun x' => sumOver bits (ancZ enc) (fun j' => rk (B t x j x' j') (B' t x j x' j') w w')
          fun _ => 0) fun _ => 0) fun _ => 0) fun _ => 0) (fun _ => 0) else 0 := by
    intro B B'
    have e6 : ∀ t x j, sumOver bits (ancX enc) (fun y =>
        sumOver bits (ancZ enc) (fun x' => sumOver bits (ancZ enc) (fun j' => sumOver bits (ancZ enc) (fun y' =>
          rk (fun z => if (∀ a ∈ ancX enc, z a = bitsOf y a) ∧ ∀ a ∈ ancZ enc, z a = bitsOf y' a then B t x j x' j' z else 0)
            (fun z => if (∀ a ∈ ancX enc, z a = bitsOf y a) ∧ ∀ a ∈ ancZ enc, z a = bitsOf y' a then B' t x j x' j' z else 0) w w')
          fun _ => 0) fun _ => 0) fun _ => 0) (fun _ => 0) = sumOver bits (ancZ enc) (fun x' => sumOver bits (ancZ enc) (fun j' =>
            if ∀ a ∈ ancAll enc, w a = w' a then rk (B t x j x' j') (B' t x j x' j') w w' else 0) fun _ => 0) fun _ => 0 := by
      intro t x j
      rw [sumOver_comm]
      refine sumOver_congr fun x' => ?_
      rw [sumOver_comm]
      exact sumOver_congr fun j' => e4 _ _
    simp only [e6]
    by_cases h : ∀ a ∈ ancAll enc, w a = w' a
    · simp only [if_pos h]
    · simp only [if_neg h, sumOver_zero]
  rw [e5]
  rfl

/-! ## The circuit -/

theorem thru_pair (n : Nat) {m o : Oper ℂ} (hm : shapeD (shapes ctr (n + 1)) m = [[.i]]) (ho : shapeD (shapes ctr (n + 1)) o = [[.o]]) (q : Int) :
    Thru (shapes ctr (n + 1)) [(m, [q]), (o, [q])] := by
  intro p
  have : wordOf (shapes ctr (n + 1)) [(m, [q]), (o, [q])] p = portsAt [[.i]] [q] p ++ (portsAt [[.o]] [q] p ++ []) := by
    unfold wordOf
    simp only [List.flatMap_cons, List.flatMap_nil, hm, ho]
  rw [this]
  by_cases h : q = p
  · exact ⟨1, by simp [portsAt, Letter.ports, through, h], by simp [h]⟩
  · exact ⟨0, by simp [portsAt, Letter.ports, through, h], by simp [Ne.symm h]⟩

theorem thru_stabNd (n : Nat) {l anc : List Int} {E : List (Int × Int)} (hE : ∀ e ∈ E, e.1 ≠ e.2) : Thru (shapes ctr (n + 1)) (stabOpsNd l E anc) := by
  unfold stabOpsNd
  refine ((Thru.append (Thru.append ?_ ?_) ?_).append ?_)
  · exact Thru.map fun q _ => thru_h n q
  · exact Thru.map fun e he => thru_cz n (hE e he)
  · exact Thru.map fun q _ => thru_h n q
  · exact Thru.flatMap fun q _ => thru_pair n rfl rfl q

theorem thru_clear (n : Nat) (anc : List Int) : Thru (shapes ctr (n + 1)) (clearOps anc) := Thru.flatMap fun q _ => thru_pair n rfl rfl q

theorem thru_correct (n : Nat) {g : Oper ℂ} {C : List (Int × Int)} (hg : ∀ e ∈ C, Thru (shapes ctr (n + 1)) [(g, [e.1, e.2])]) :
    Thru (shapes ctr (n + 1)) (correctOps g C) := by
  refine Thru.flatMap fun e he => ?_
  exact (hg e he).append (thru_pair n rfl rfl e.1)

theorem mem_finalOps {enc : Int × Int → Int} {x : Oper ℂ × List Int} (h : x ∈ finalOps enc) :
    (∃ q, x = (hGateOp, [q]) ∨ x = (placeHolder, [q]) ∨ x = (traceState, [q]) ∨ x = (traceOp, [q]) ∨ x = (zeroState, [q])) ∨
    ∃ e, (e ∈ (xDance.flatMap (slotPairs demoCoords)).map (fun e => (enc e.1, enc e.2)) ∨ e ∈ (zDance.flatMap (slotPairs demoCoords)).map (fun e => (enc e.1, enc e.2)) ∨
      e ∈ finalCz.map (fun e => (enc e.1, enc e.2)) ∨ e ∈ finalCnot.map (fun e => (enc e.1, enc e.2))) ∧ (x = (czOp, [e.1, e.2]) ∨ x = (cnotOp, [e.1, e.2])) := by
  have hst : ∀ {l anc : List Int} {E : List (Int × Int)}, x ∈ stabOpsNd l E anc →
      (∃ q, x = (hGateOp, [q]) ∨ x = (placeHolder, [q]) ∨ x = (traceState, [q])) ∨ ∃ e ∈ E, x = (czOp, [e.1, e.2]) := by
    intro l anc E h
    unfold stabOpsNd at h
    simp only [List.mem_append, List.mem_map, List.mem_flatMap, List.mem_cons, List.not_mem_nil, or_false] at h
    rcases h with ((⟨q, _, rfl⟩ | ⟨e, he, rfl⟩) | ⟨q, _, rfl⟩) | ⟨q, _, rfl | rfl⟩
    · exact Or.inl ⟨q, Or.inl rfl⟩
    · exact Or.inr ⟨e, he, rfl⟩
    · exact Or.inl ⟨q, Or.inl rfl⟩
    · exact Or.inl ⟨q, Or.inr (Or.inl rfl)⟩
    · exact Or.inl ⟨q, Or.inr (Or.inr rfl)⟩
  have hco : ∀ {g : Oper ℂ} {C : List (Int × Int)}, x ∈ correctOps g C → (∃ q, x = (traceState, [q]) ∨ x = (traceOp, [q])) ∨ ∃ e ∈ C, x = (g, [e.1, e.2]) := by
    intro g C h
    unfold correctOps at h
    obtain ⟨e, he, hx⟩ := List.mem_flatMap.1 h
    simp only [List.mem_cons, List.not_mem_nil, or_false] at hx
    rcases hx with rfl | rfl | rfl
    · exact Or.inr ⟨e, he, rfl⟩
    · exact Or.inl ⟨_, Or.inr rfl⟩
    · exact Or.inl ⟨_, Or.inl rfl⟩
  unfold finalOps xOpsNd zOpsNd at h
  rw [List.mem_append, List.mem_append, List.mem_append, List.mem_append] at h
  rcases h with (((h | h) | h) | h) | h
  · unfold clearOps at h
    obtain ⟨q, _, hx⟩ := List.mem_flatMap.1 h
    simp only [List.mem_cons, List.not_mem_nil, or_false] at hx
    rcases hx with rfl | rfl
    · exact Or.inl ⟨q, Or.inr (Or.inr (Or.inr (Or.inl rfl)))⟩
    · exact Or.inl ⟨q, Or.inr (Or.inr (Or.inr (Or.inr rfl)))⟩
  · rcases hst h with ⟨q, h | h | h⟩ | ⟨e, he, h⟩
    · exact Or.inl ⟨q, Or.inl h⟩
    · exact Or.inl ⟨q, Or.inr (Or.inl h)⟩
    · exact Or.inl ⟨q, Or.inr (Or.inr (Or.inl h))⟩
    · exact Or.inr ⟨e, Or.inl he, Or.inl h⟩
  · rcases hco h with ⟨q, h | h⟩ | ⟨e, he, h⟩
    · exact Or.inl ⟨q, Or.inr (Or.inr (Or.inl h))⟩
    · exact Or.inl ⟨q, Or.inr (Or.inr (Or.inr (Or.inl h)))⟩
    · exact Or.inr ⟨e, Or.inr (Or.inr (Or.inl he)), Or.inl h⟩
  · rcases hst h with ⟨q, h | h | h⟩ | ⟨e, he, h⟩
    · exact Or.inl ⟨q, Or.inl h⟩
    · exact Or.inl ⟨q, Or.inr (Or.inl h)⟩
    · exact Or.inl ⟨q, Or.inr (Or.inr (Or.inl h))⟩
    · exact Or.inr ⟨e, Or.inr (Or.inl he), Or.inl h⟩
  · rcases hco h with ⟨q, h | h⟩ | ⟨e, he, h⟩
    · exact Or.inl ⟨q, Or.inr (Or.inr (Or.inl h))⟩
    · exact Or.inl ⟨q, Or.inr (Or.inr (Or.inr (Or.inl h)))⟩
    · exact Or.inr ⟨e, Or.inr (Or.inr (Or.inr he)), Or.inr h⟩

/-- The pairs are of two qubits. -/
theorem final_pairs {enc : Int × Int → Int} (he : Function.Injective enc) :
    (∀ e ∈ (xDance.flatMap (slotPairs demoCoords)).map (fun e => (enc e.1, enc e.2)), e.1 ≠ e.2) ∧
    (∀ e ∈ (zDance.flatMap (slotPairs demoCoords)).map (fun e => (enc e.1, enc e.2)), e.1 ≠ e.2) ∧
    (∀ e ∈ finalCz.map (fun e => (enc e.1, enc e.2)), e.1 ≠ e.2) ∧ ∀ e ∈ finalCnot.map (fun e => (enc e.1, enc e.2)), e.1 ≠ e.2 := by
  refine ⟨(enc_edges he (l := [.X1, .X2]) (by decide) (c67_x_pairs demoCoords_nodup)).2, (enc_edges he (l := [.Z1, .Z2]) (by decide) (c67_z_pairs demoCoords_nodup)).2, ?_, ?_⟩
  · intro e hm
    obtain ⟨e, h1, rfl⟩ := List.mem_map.1 hm
    exact fun h => (anc_facts.2.2.2.1 e h1).2 ((anc_facts.1 _).2 (Or.inl (he h ▸ (anc_facts.2.2.2.1 e h1).1)))
  · intro e hm
    obtain ⟨e, h1, rfl⟩ := List.mem_map.1 hm
    exact fun h => (anc_facts.2.2.2.2.1 e h1).2 ((anc_facts.1 _).2 (Or.inr (he h ▸ (anc_facts.2.2.2.2.1 e h1).1)))

theorem thru_final {enc : Int × Int → Int} (he : Function.Injective enc) (n : Nat) : Thru (shapes ctr (n + 1)) (finalOps enc) := by
  obtain ⟨h1, h2, h3, h4⟩ := final_pairs he
  unfold finalOps xOpsNd zOpsNd
  exact ((((thru_clear n _).append (thru_stabNd n h1)).append (thru_correct n fun e hm => thru_cz n (h3 e hm))).append (thru_stabNd n h2)).append
    (thru_correct n fun e hm => thru_cnot n (h4 e hm))

theorem final_appendable {enc : Int × Int → Int} (he : Function.Injective enc) (n : Nat) : ∀ x ∈ finalOps enc, Appendable (shapes ctr (n + 1)) x := by
  intro x hx
  obtain ⟨h1, h2, h3, h4⟩ := final_pairs he
  rcases mem_finalOps hx with ⟨q, rfl | rfl | rfl | rfl | rfl⟩ | ⟨e, hm, hx⟩
  · exact ⟨[[.i, .o]], rfl, rfl, by simp⟩
  · exact ⟨[[.i]], rfl, rfl, by simp⟩
  · exact ⟨[[.o]], rfl, rfl, by simp⟩
  · exact ⟨[[.i]], rfl, rfl, by simp⟩
  · exact ⟨[[.o]], rfl, rfl, by simp⟩
  · have hne : e.1 ≠ e.2 := by
      rcases hm with hm | hm | hm | hm
      · exact h1 e hm
      · exact h2 e hm
      · exact h3 e hm
      · exact h4 e hm
    rcases hx with rfl | rfl
    · exact ⟨[[.c], [.c]], rfl, rfl, by simpa using hne⟩
    · exact ⟨[[.c], [.i, .o]], rfl, rfl, by simpa using hne⟩

theorem final_dens {enc : Int × Int → Int} (n k : Nat) : ∀ x ∈ finalOps enc, DensBuilt ctr k (n + 1) x.1 := by
  intro x hx
  rcases mem_finalOps hx with ⟨q, rfl | rfl | rfl | rfl | rfl⟩ | ⟨e, -, rfl | rfl⟩
  · have hb := hGate_built (ctr := ctr) n
    unfold hGateOp at hb ⊢; rw [DensBuilt]; exact ⟨hb, TVal.flat_ten _ _⟩
  · exact dens_placeHolder k n
  · exact dens_traceState k n
  · exact dens_trace k n
  · have hb := zeroState_built (ctr := ctr) n
    unfold zeroState at hb ⊢; rw [DensBuilt]; exact ⟨hb, TVal.flat_ten _ _⟩
  · have hb := cz_built (ctr := ctr) n
    unfold czOp at hb ⊢; rw [DensBuilt]; exact ⟨hb, TVal.flat_ten _ _⟩
  · have hb := cnot_built (ctr := ctr) n
    unfold cnotOp at hb ⊢; rw [DensBuilt]; exact ⟨hb, TVal.flat_ten _ _⟩

/-- The basis state `v` of the qubits of `Q` that are no ancillas. -/
def dataState (enc : Int × Int → Int) (Q : List Int) (v : Int → Nat) : Amp := fun z => if ∀ q ∈ Q, q ∉ ancAll enc → z q = (v q : ZMod 2) then 1 else 0

theorem outcome_zero (enc : Int × Int → Int) (x j x' j' : Int → ZMod 2) : outcome enc x j x' j' (fun _ => 0) = fun _ => 0 := by
  have hx : ∀ l : List (Int × Int), l.foldl (fun Φ a => xproj (x (enc a)) ((demoCoords.filter (adjacent a)).map enc) Φ) (fun _ => 0) = fun _ => 0 := by
    intro l
    induction l with
    | nil => rfl
    | cons a l ih =>
      rw [List.foldl_cons]
      have : xproj (x (enc a)) ((demoCoords.filter (adjacent a)).map enc) (fun _ => 0) = fun _ => 0 := by funext z; simp [xproj]
      rw [this, ih]
  funext z
  unfold outcome branch xCorrect zProjs xProjs
  rw [zprojs_eq, hx]
  simp [zCorrect]

theorem data_split {enc : Int × Int → Int} {Q : List Int} (hQ : ∀ a ∈ ancAll enc, a ∈ Q) {t v : Int → Nat} (ht : Good t) (hv : Good v) :
    (fun z => if ∀ q ∈ Q, setOn (ancAll enc) (bitsOf t) z q = (v q : ZMod 2) then (1 : ℂ) else 0) =
      if ∀ a ∈ ancAll enc, t a = v a then dataState enc Q v else fun _ => 0 := by
  classical
  funext z
  have : (∀ q ∈ Q, setOn (ancAll enc) (bitsOf t) z q = (v q : ZMod 2)) ↔ (∀ a ∈ ancAll enc, t a = v a) ∧ ∀ q ∈ Q, q ∉ ancAll enc → z q = (v q : ZMod 2) := by
    unfold setOn
    constructor
    · intro h
      refine ⟨fun a ha => ?_, fun q hq hn => ?_⟩
      · have := h a (hQ a ha)
        rw [if_pos ha] at this
        exact (cast_two (ht a) (hv a)).1 this
      · have := h q hq
        rwa [if_neg hn] at this
    · rintro ⟨h1, h2⟩ q hq
      by_cases hn : q ∈ ancAll enc
      · rw [if_pos hn]; exact (cast_two (ht q) (hv q)).2 (h1 q hn)
      · rw [if_neg hn]; exact h2 q hq hn
  rw [if_congr this rfl rfl, ite_and]
  unfold dataState
  by_cases h : ∀ a ∈ ancAll enc, t a = v a
  · rw [if_pos h, if_pos h]
  · rw [if_neg h, if_neg h]

/-- **C77**: `tensor_density` of the circuit of `final_measurement`: the old values of the ancillas are traced out, their new ones are any with equal row and
column; the data is measured and corrected, with a sum over all outcomes `x`, `x'` and, independent of these, over all corrections `j`, `j'`. -/
theorem c77_density (hctr : Evaluates ctr) {G : TN.Glue} (hG : G.Sound) {enc : Int × Int → Int} (he : Function.Injective enc) {n k K : Nat} (hK : n + 2 + k ≤ K)
    {Q : List Int} (hs : Q.Pairwise (· < ·)) (hQ : ∀ q, q ∈ Q ↔ ∃ x ∈ finalOps enc, q ∈ x.2) :
    ∃ c d, finalMeasurement (shapes ctr (n + 1)) enc [] = .ok c ∧ DensBuilt ctr k (n + 2) (.circ c) ∧ density ctr G K (n + 2) (.circ c) = .ok d ∧
      ∀ u v u' v' : Int → Nat, Good u → Good v → Good u' → Good v' → d.tot (Q.map u ++ Q.map v ++ Q.map u' ++ Q.map v') =
        if ∀ a ∈ finalAnc, u (enc a) = u' (enc a) ∧ v (enc a) = v' (enc a) then
          sumOver bits (ancX enc) (fun x => sumOver bits (ancX enc) (fun j => sumOver bits (ancZ enc) (fun x' => sumOver bits (ancZ enc) (fun j' =>
            lift (outcome enc (bitsOf x) (bitsOf j) (bitsOf x') (bitsOf j') (dataState enc Q v)) u *
              star (lift (outcome enc (bitsOf x) (bitsOf j) (bitsOf x') (bitsOf j') (dataState enc Q v')) u'))
            fun _ => 0) fun _ => 0) fun _ => 0) fun _ => 0
        else 0 := by
  classical
  have ht := thru_final (ctr := ctr) he n
  obtain ⟨c, d, h1, h2, h3, h4⟩ := c63_density hctr hG (final_dens (ctr := ctr) (enc := enc) n k) (K := K) (by omega) (final_appendable he n) (fun q => by
      obtain ⟨k, h1, -⟩ := ht q
      unfold wordOf at h1
      rw [h1]
      exact (through_chain k).2)
    (outQ := Q) (inQ := Q) ⟨hs, fun q => by
      obtain ⟨k, h1, h2⟩ := ht q
      unfold wordOf at h1
      rw [h1, (through_ends k).1, h2, hQ]⟩ ⟨hs, fun q => by
      obtain ⟨k, h1, h2⟩ := ht q
      unfold wordOf at h1
      rw [h1, (through_ends k).2, h2, hQ]⟩
  refine ⟨c, d, h1, h2, h3, fun u v u' v' hu hv hu' hv' => ?_⟩
  have hanc : ∀ a ∈ ancAll enc, a ∈ Q := by
    intro a ha
    refine (hQ a).2 ⟨(traceOp, [a]), ?_, by simp⟩
    unfold finalOps
    simp only [List.mem_append]
    refine Or.inl (Or.inl (Or.inl (Or.inl ?_)))
    exact List.mem_flatMap.2 ⟨a, ha, by simp⟩
  have hb : ∀ {v w : Int → Nat}, Good v → Good w → (basisState Q v w : ℂ) = lift (fun z => if ∀ q ∈ Q, z q = (v q : ZMod 2) then 1 else 0) w := by
    intro v w hv hw
    unfold basisState lift
    exact if_congr (forall₂_congr fun q _ => (cast_two (hw q) (hv q)).symm) rfl rfl
  rw [h4 u v u' v' hu hv hu' hv']
  refine (evolveDens_good (ρ' := rk (fun z => if ∀ q ∈ Q, z q = (v q : ZMod 2) then 1 else 0) (fun z => if ∀ q ∈ Q, z q = (v' q : ZMod 2) then 1 else 0))
    (fun w w' hw hw' => by rw [basisDens_eq, hb hv hw, hb hv' hw']; rfl) hu hu').trans ?_
  refine (final_acts (ctr := ctr) he n _ _ hu hu').trans ?_
  have hif : (∀ a ∈ finalAnc, u (enc a) = u' (enc a) ∧ v (enc a) = v' (enc a)) ↔ (∀ a ∈ ancAll enc, u a = u' a) ∧ ∀ a ∈ ancAll enc, v a = v' a := by
    unfold ancAll
    simp only [List.forall_mem_map]
    exact forall₂_and
  rw [if_congr hif rfl rfl, ite_and]
  refine if_congr Iff.rfl ?_ rfl
  refine Eq.trans (sumOver_congr_reach fun t ht => ?_) (sumOver_delta (anc_facts.2.2.2.2.2.2.2.map he) (j := v) (fun a _ => hv a) _ _)
  have htg := reach_good ht
  rw [data_split hanc htg hv, data_split hanc htg hv']
  change _ = if ∀ a ∈ ancAll enc, t a = v a then _ else 0
  by_cases c1 : ∀ a ∈ ancAll enc, t a = v a
  · have d1 : (∀ a ∈ ancAll enc, t a = v' a) ↔ ∀ a ∈ ancAll enc, v a = v' a := forall₂_congr fun a ha => by rw [c1 a ha]
    rw [if_pos c1, if_pos c1, if_congr d1 rfl rfl]
    by_cases c2 : ∀ a ∈ ancAll enc, v a = v' a
    · rw [if_pos c2, if_pos c2]
      rfl
    · rw [if_neg c2, if_neg c2]
      simp only [outcome_zero, rk, lift, star_zero, mul_zero, sumOver_zero]
  · rw [if_neg c1, if_neg c1]
    simp only [outcome_zero, rk, lift, zero_mul, sumOver_zero]

/-- The hypotheses of `c77_density` hold for a numbering of the coordinates. -/
example : ∃ c d, finalMeasurement (shapes evalAll 1) pairUp [] = .ok c ∧ density evalAll stdGlue 2 2 (.circ c) = .ok d := by
  obtain ⟨c, d, h1, -, h3, -⟩ := c77_density evalAll_evaluates stdGlue_sound pairUp_injective (n := 0) (k := 0) (K := 2) (by omega)
    (sortLT ((finalOps pairUp).flatMap Prod.snd)) (fun q => by rw [Finset.mem_sort, List.mem_toFinset, List.mem_flatMap])
  exact ⟨c, d, h1, h3⟩

/-! ## The corrections -/

theorem xproj_zproj {M N : List Int} (h : (M.map fun q => N.count q).sum % 2 = 0) (s t : ZMod 2) (Φ : Amp) : xproj s N (zproj t M Φ) = zproj t M (xproj s N Φ) := by
  funext z
  rw [zproj_eq]
  unfold xproj
  rw [zproj_eq, zproj_eq, sum_flips]
  have hc : (((M.map fun q => N.count q).sum : Nat) : ZMod 2) = 0 := by
    rw [ZMod.natCast_eq_zero_iff]; omega
  rw [hc, add_zero]
  split <;> simp

theorem xproj_xCorrect {enc : Int × Int → Int} (C : List ((Int × Int) × (Int × Int))) (j : Int × Int → ZMod 2) (s : ZMod 2) (N : List Int) (Φ : Amp) :
    xproj s N (xCorrect enc C j Φ) = xCorrect enc C j (xproj s N Φ) := by
  funext z
  unfold xproj xCorrect
  have : (fun q => flips N z q + (C.map fun e => if enc e.2 = q then j e.1 else 0).sum) =
      flips N fun q => z q + (C.map fun e => if enc e.2 = q then j e.1 else 0).sum := by
    funext q; unfold flips; ring
  rw [this]

theorem xproj_zProjs {enc : Int × Int → Int} (he : Function.Injective enc) {a : Int × Int} (ha : a ∈ inGroups demoCoords [.X1, .X2]) (s : ZMod 2) (x : Int → ZMod 2) (Φ : Amp) :
    xproj s ((demoCoords.filter (adjacent a)).map enc) (zProjs enc x Φ) = zProjs enc x (xproj s ((demoCoords.filter (adjacent a)).map enc) Φ) := by
  have h : ∀ b ∈ inGroups demoCoords [.Z1, .Z2], (((demoCoords.filter (adjacent b)).map enc).map fun q => ((demoCoords.filter (adjacent a)).map enc).count q).sum % 2 = 0 := by
    intro b hb
    rw [overlap he]
    revert a b
    decide +kernel
  unfold zProjs
  generalize inGroups demoCoords [.Z1, .Z2] = l at h
  induction l generalizing Φ with
  | nil => rfl
  | cons b l ih =>
    rw [List.foldl_cons, List.foldl_cons, ih _ fun b hb => h b (List.mem_cons_of_mem _ hb), xproj_zproj (h b List.mem_cons_self)]

/-- **C77**: in the code space only the branches are left whose corrections are those of their outcomes: for each Z stabilizer … -/
theorem c77_select_z {enc : Int × Int → Int} (he : Function.Injective enc) (x j x' j' : Int → ZMod 2) (Φ : Amp) {b : Int × Int} (hb : b ∈ inGroups demoCoords [.Z1, .Z2]) :
    zproj 0 ((demoCoords.filter (adjacent b)).map enc) (branch enc x j x' j' Φ) = if j' (enc b) = x' (enc b) then branch enc x j x' j' Φ else fun _ => 0 := by
  unfold branch
  refine c68_correct_z he (s := fun b => x' (enc b)) (fun b hb => ?_) (fun a => j' (enc a)) hb
  unfold zProjs
  funext z
  rw [zproj_eq, zprojs_eq]
  split
  · rfl
  · rename_i h
    rw [if_neg fun h' => h (h' b hb)]

/-- **C77**: … and for each X stabilizer. -/
theorem c77_select_x {enc : Int × Int → Int} (he : Function.Injective enc) (x j x' j' : Int → ZMod 2) (Φ : Amp) {a : Int × Int} (ha : a ∈ inGroups demoCoords [.X1, .X2]) :
    xproj 0 ((demoCoords.filter (adjacent a)).map enc) (branch enc x j x' j' Φ) = if j (enc a) = x (enc a) then branch enc x j x' j' Φ else fun _ => 0 := by
  unfold branch
  rw [xproj_xCorrect, xproj_zProjs he ha, c68_correct_x he (s := fun a => x (enc a)) (fun a ha => ?_) (fun a => j (enc a)) ha]
  · split
    · rfl
    · funext z
      unfold xCorrect zProjs
      rw [zprojs_eq, ite_self]
  · unfold xProjs
    exact xproj_fold (fun a => x (enc a)) (fun a => (demoCoords.filter (adjacent a)).map enc) _ ha _

/-- **C77**: the branch without syndrome and correction leaves the states of the code as they are. -/
theorem c77_code {enc : Int × Int → Int} {Φ : Amp} (hx : ∀ a ∈ inGroups demoCoords [.X1, .X2], xproj 0 ((demoCoords.filter (adjacent a)).map enc) Φ = Φ)
    (hz : ∀ b ∈ inGroups demoCoords [.Z1, .Z2], zproj 0 ((demoCoords.filter (adjacent b)).map enc) Φ = Φ) :
    branch enc (fun _ => 0) (fun _ => 0) (fun _ => 0) (fun _ => 0) Φ = Φ := by
  have h1 : xProjs enc (fun _ => 0) Φ = Φ := by
    unfold xProjs
    generalize inGroups demoCoords [.X1, .X2] = l at hx
    induction l with
    | nil => rfl
    | cons a l ih => rw [List.foldl_cons, hx a List.mem_cons_self, ih fun a ha => hx a (List.mem_cons_of_mem _ ha)]
  have h2 : zProjs enc (fun _ => 0) Φ = Φ := by
    unfold zProjs
    generalize inGroups demoCoords [.Z1, .Z2] = l at hz
    induction l with
    | nil => rfl
    | cons a l ih => rw [List.foldl_cons, hz a List.mem_cons_self, ih fun a ha => hz a (List.mem_cons_of_mem _ ha)]
  have h3 : zCorrect enc finalCz (fun _ => 0) Φ = Φ := by
    funext z
    unfold zCorrect
    simp
  have h4 : xCorrect enc finalCnot (fun _ => 0) Φ = Φ := by
    funext z
    unfold xCorrect
    simp
  unfold branch
  rw [h1, h3, h2, h4]

/-- The hypotheses of `c77_code` hold for the logical state 0 of the demo. -/
example : branch pairUp (fun _ => 0) (fun _ => 0) (fun _ => 0) (fun _ => 0) (codeZero pairUp demoCoords) = codeZero pairUp demoCoords ∧
    codeZero pairUp demoCoords ≠ fun _ => 0 :=
  ⟨c77_code (fun _ ha => (c68_x pairUp_injective ha).1) (fun _ hb => (c68_z pairUp_injective hb).1), fun h => (c68_nonzero pairUp demoCoords).1 (by rw [h])⟩

/-- The hypotheses of `c77_select_z` and `c77_select_x` hold: wrong corrections of the logical state 0 leave the code. -/
example : zproj 0 ((demoCoords.filter (adjacent (1, 3))).map pairUp) (branch pairUp (fun _ => 0) (fun _ => 0) (fun _ => 0) (fun _ => 1) (codeZero pairUp demoCoords)) = (fun _ => 0) ∧
    xproj 0 ((demoCoords.filter (adjacent (1, 1))).map pairUp) (branch pairUp (fun _ => 0) (fun _ => 1) (fun _ => 0) (fun _ => 0) (codeZero pairUp demoCoords)) = fun _ => 0 :=
  ⟨(c77_select_z pairUp_injective _ _ _ _ _ (b := (1, 3)) (by decide +kernel)).trans (if_neg (by decide)),
    (c77_select_x pairUp_injective _ _ _ _ _ (a := (1, 1)) (by decide +kernel)).trans (if_neg (by decide))⟩

end Oper

end Verif
