import Verif.Model.FinalMeasure
import Verif.Lemmas.Measure
import Verif.Props.CodeState
/-!
# Mixed operations as sums of operators on amplitudes
-/

namespace Verif

namespace Oper

open Circ Qec Function

set_option linter.unusedSimpArgs false

variable {ctr : TVal ℂ → Except Err (Arr ℂ)}

/-- The operations as maps of density matrices. -/
noncomputable def densActs (ctr : TVal ℂ → Except Err (Arr ℂ)) (n : Nat) (l : List (Oper ℂ × List Int)) : List (Act ℂ) :=
  l.map fun x => actAt ctr n x.1 x.2

/-- The density matrix `Φ Ψ†`. -/
noncomputable def rk (Φ Ψ : Amp) : (Int → Nat) → (Int → Nat) → ℂ := fun w w' => lift Φ w * star (lift Ψ w')

theorem evolveDens_good {l : List (Act ℂ)} {ρ ρ' : (Int → Nat) → (Int → Nat) → ℂ} (h : ∀ w w', Good w → Good w' → ρ w w' = ρ' w w')
    {u u' : Int → Nat} (hu : Good u) (hu' : Good u') : evolveDens l ρ u u' = evolveDens l ρ' u u' :=
  evolveDens_same (List.forall₂_same.2 fun _ _ => ⟨rfl, rfl, fun _ _ => rfl⟩) h hu hu'

/-- Sums of density matrices evolve as sums. -/
theorem evolveDens_sum (l : List (Act ℂ)) (Q : List Int) (F : (Int → Nat) → (Int → Nat) → (Int → Nat) → ℂ) (a u u' : Int → Nat) :
    evolveDens l (fun w w' => sumOver bits Q (fun x => F x w w') a) u u' = sumOver bits Q (fun x => evolveDens l (F x) u u') a := by
  induction l generalizing F with
  | nil => rfl
  | cons p l ih =>
    rw [evolveDens]
    have : p.applyDens (fun w w' => sumOver bits Q (fun x => F x w w') a) = fun w w' => sumOver bits Q (fun x => p.applyDens (F x) w w') a := by
      funext w w'
      unfold Act.applyDens
      rw [sumOver_comm Q p.ins]
      refine sumOver_congr fun y => ?_
      rw [sumOver_comm Q p.ins]
      refine sumOver_congr fun y' => ?_
      rw [sumOver_const_mul]
    rw [this, ih]
    rfl

theorem ph_tot : ∀ x x' : Nat, x < 2 → x' < 2 → (TVal.ofTN phNet).tot [x, x'] = if x = x' then 1 else 0 := by
  intro x x' hx hx'
  rw [TVal.tot_ofTN]
  have e : phNet.total TVal.tot [x, x'] = sumOver phNet.dom [.int 0]
      (fun a => if [a (.int 0), a (.int 0)] = [x, x'] then (TVal.tot (.ten (some ⟨[2], fun _ => (1 : ℂ)⟩)) [a (.int 0)] * 1) else 0) fun _ => 0 := rfl
  rw [e, sumOver_cons]
  have e2 : phNet.dom (.int 0) = Finset.range 2 := rfl
  rw [e2, Finset.sum_range_succ, Finset.sum_range_one]
  simp only [sumOver_nil, Function.update_self, List.cons.injEq, and_true]
  rw [TVal.tot]
  have h : x = 0 ∨ x = 1 := by omega
  have h' : x' = 0 ∨ x' = 1 := by omega
  rcases h with rfl | rfl <;> rcases h' with rfl | rfl <;> simp

theorem dens_placeHolder (k n : Nat) : DensBuilt ctr k (n + 1) placeHolder := by
  rw [placeHolder, DensBuilt]
  rfl

theorem dens_traceState (k n : Nat) : DensBuilt ctr k (n + 1) traceState := by
  rw [traceState, DensBuilt]
  rfl

theorem applyDens_placeHolder {n : Nat} (q : Int) (ρ : (Int → Nat) → (Int → Nat) → ℂ) (w w' : Int → Nat) :
    (actAt ctr (n + 1) placeHolder [q]).applyDens ρ w w' =
      ρ (update w q 0) (update w' q 0) + ρ (update w q 1) (update w' q 1) := by
  show Act.applyDens ⟨TVal.tot (.ofTN phNet), inQubits [[.i]] [q], outQubits [[.i]] [q]⟩ ρ w w' = _
  rw [inQubits_i, outQubits_i]
  unfold Act.applyDens
  simp only [sumOver_one]
  show TVal.tot _ [update w q 0 q, update w' q 0 q] * _ + TVal.tot _ [update w q 0 q, update w' q 1 q] * _ +
    (TVal.tot _ [update w q 1 q, update w' q 0 q] * _ + TVal.tot _ [update w q 1 q, update w' q 1 q] * _) = _
  simp only [update_self]
  rw [ph_tot 0 0 (by omega) (by omega), ph_tot 0 1 (by omega) (by omega), ph_tot 1 0 (by omega) (by omega), ph_tot 1 1 (by omega) (by omega)]
  simp

theorem applyDens_traceState {n : Nat} (q : Int) (ρ : (Int → Nat) → (Int → Nat) → ℂ) {w w' : Int → Nat} (hw : Good w) (hw' : Good w') :
    (actAt ctr (n + 1) traceState [q]).applyDens ρ w w' = if w q = w' q then ρ w w' else 0 := by
  show Act.applyDens ⟨TVal.tot (.ofTN traceNet), inQubits [[.o]] [q], outQubits [[.o]] [q]⟩ ρ w w' = _
  rw [inQubits_o, outQubits_o]
  show TVal.tot _ [w q, w' q] * ρ w w' = _
  rw [trace_tot _ _ (hw q) (hw' q)]
  split <;> simp

theorem densActs_append (n : Nat) (l l' : List (Oper ℂ × List Int)) : densActs ctr n (l ++ l') = densActs ctr n l ++ densActs ctr n l' := List.map_append

/-- Operations one after another, each a sum over the value of its qubit. -/
theorem block_one {β : Type} {n : Nat} {l : List β} {ops : β → List (Oper ℂ × List Int)} {name : β → Int} {V : β → Nat → Amp → Amp}
    (h : ∀ b ∈ l, ∀ (Φ Ψ : Amp) (c : Int → Nat) {w w' : Int → Nat}, Good w → Good w' → evolveDens (densActs ctr n (ops b)) (rk Φ Ψ) w w' =
      sumOver bits [name b] (fun x => rk (V b (x (name b)) Φ) (V b (x (name b)) Ψ) w w') c) (hn : (l.map name).Nodup) :
    ∀ (Φ Ψ : Amp) (c : Int → Nat) {w w' : Int → Nat}, Good w → Good w' → evolveDens (densActs ctr n (l.flatMap ops)) (rk Φ Ψ) w w' =
      sumOver bits (l.map name) (fun x => rk (l.foldl (fun Φ b => V b (x (name b)) Φ) Φ) (l.foldl (fun Φ b => V b (x (name b)) Φ) Ψ) w w') c := by
  induction l with
  | nil => intro Φ Ψ c w w' _ _; rfl
  | cons b l ih =>
    intro Φ Ψ c w w' hw hw'
    rw [List.map_cons, List.nodup_cons] at hn
    have ih := ih (fun b hb => h b (List.mem_cons_of_mem _ hb)) hn.2
    rw [List.flatMap_cons, densActs_append, evolveDens_append,
      evolveDens_good (fun w w' hw hw' => h b List.mem_cons_self Φ Ψ c hw hw') hw hw',
      evolveDens_sum _ _ (fun x => rk (V b (x (name b)) Φ) (V b (x (name b)) Ψ)), List.map_cons]
    refine Eq.trans ?_ (sumOver_append bits [name b] (l.map name) _ _).symm
    refine sumOver_congr fun x => ?_
    rw [ih _ _ x hw hw']
    refine sumOver_congr_reach fun y hy => ?_
    rw [List.foldl_cons, List.foldl_cons, hy.1 _ hn.1]

/-- The same with two sums. -/
theorem block_two {β : Type} {n : Nat} {l : List β} {ops : β → List (Oper ℂ × List Int)} {name : β → Int} {V : β → Nat → Nat → Amp → Amp}
    (h : ∀ b ∈ l, ∀ (Φ Ψ : Amp) (c c' : Int → Nat) {w w' : Int → Nat}, Good w → Good w' → evolveDens (densActs ctr n (ops b)) (rk Φ Ψ) w w' =
      sumOver bits [name b] (fun x => sumOver bits [name b] (fun y => rk (V b (x (name b)) (y (name b)) Φ) (V b (x (name b)) (y (name b)) Ψ) w w') c') c)
    (hn : (l.map name).Nodup) :
    ∀ (Φ Ψ : Amp) (c c' : Int → Nat) {w w' : Int → Nat}, Good w → Good w' → evolveDens (densActs ctr n (l.flatMap ops)) (rk Φ Ψ) w w' =
      sumOver bits (l.map name) (fun x => sumOver bits (l.map name) (fun y =>
        rk (l.foldl (fun Φ b => V b (x (name b)) (y (name b)) Φ) Φ) (l.foldl (fun Φ b => V b (x (name b)) (y (name b)) Φ) Ψ) w w') c') c := by
  induction l with
  | nil => intro Φ Ψ c c' w w' _ _; rfl
  | cons b l ih =>
    intro Φ Ψ c c' w w' hw hw'
    rw [List.map_cons, List.nodup_cons] at hn
    have ih := ih (fun b hb => h b (List.mem_cons_of_mem _ hb)) hn.2
    rw [List.flatMap_cons, densActs_append, evolveDens_append,
      evolveDens_good (fun w w' hw hw' => h b List.mem_cons_self Φ Ψ c c' hw hw') hw hw',
      evolveDens_sum _ _ (fun x w w' => sumOver bits [name b] (fun y => rk (V b (x (name b)) (y (name b)) Φ) (V b (x (name b)) (y (name b)) Ψ) w w') c'),
      List.map_cons]
    refine Eq.trans ?_ (sumOver_append bits [name b] (l.map name) _ _).symm
    refine sumOver_congr fun x => ?_
    rw [evolveDens_sum _ _ (fun y => rk (V b (x (name b)) (y (name b)) Φ) (V b (x (name b)) (y (name b)) Ψ))]
    have e : ∀ x2 : Int → Nat, sumOver bits (name b :: l.map name) (fun y => rk ((b :: l).foldl (fun Φ b => V b (x2 (name b)) (y (name b)) Φ) Φ)
          ((b :: l).foldl (fun Φ b => V b (x2 (name b)) (y (name b)) Φ) Ψ) w w') c' =
        sumOver bits [name b] (fun y => sumOver bits (l.map name) (fun y => rk ((b :: l).foldl (fun Φ b => V b (x2 (name b)) (y (name b)) Φ) Φ)
          ((b :: l).foldl (fun Φ b => V b (x2 (name b)) (y (name b)) Φ) Ψ) w w') y) c' := fun x2 => sumOver_append bits [name b] (l.map name) _ _
    simp only [e]
    rw [sumOver_comm (l.map name) [name b]]
    refine sumOver_congr fun y => ?_
    rw [ih _ _ x y hw hw']
    refine sumOver_congr_reach fun x2 hx => sumOver_congr_reach fun y2 hy => ?_
    rw [List.foldl_cons, List.foldl_cons, hx.1 _ hn.1, hy.1 _ hn.1]

/-- The qubit `a` is read at `b`, and `y` afterwards. -/
noncomputable def swapIn (a : Int) (b y : ZMod 2) (Φ : Amp) : Amp := fun z => if z a = y then Φ (update z a b) else 0

theorem cast_two {a b : Nat} (ha : a < 2) (hb : b < 2) : ((a : ZMod 2) = b ↔ a = b) := by
  interval_cases a <;> interval_cases b <;> decide

theorem lift_update (Φ : Amp) (w : Int → Nat) (a : Int) (b : Nat) : lift Φ (update w a b) = Φ (update (fun p => ((w p : Nat) : ZMod 2)) a (b : ZMod 2)) := by
  unfold lift; rw [cast_update]

theorem lift_swapIn (Φ : Amp) {w : Int → Nat} (hw : Good w) (a : Int) (b : ZMod 2) {y : Nat} (hy : y < 2) :
    lift (swapIn a b (y : ZMod 2) Φ) w = if w a = y then Φ (update (fun p => ((w p : Nat) : ZMod 2)) a b) else 0 := by
  unfold lift swapIn
  exact if_congr (cast_two (hw a) hy) rfl rfl

theorem pair_swap (Φ Ψ : Amp) (a : Int) (c c' : Int → Nat) {w w' : Int → Nat} (hw : Good w) (hw' : Good w') :
    (if w a = w' a then rk Φ Ψ (update w a 0) (update w' a 0) + rk Φ Ψ (update w a 1) (update w' a 1) else 0) =
      sumOver bits [a] (fun x => sumOver bits [a] (fun y => rk (swapIn a (x a : ZMod 2) (y a : ZMod 2) Φ) (swapIn a (x a : ZMod 2) (y a : ZMod 2) Ψ) w w') c') c := by
  simp only [sumOver_one, update_self]
  unfold rk
  rw [lift_update, lift_update, lift_update, lift_update]
  have h0 : ∀ (Φ : Amp) {w : Int → Nat}, Good w → ∀ b, lift (swapIn a b ((0 : Nat) : ZMod 2) Φ) w = _ := fun Φ w hw b => lift_swapIn Φ hw a b (by omega)
  have h1 : ∀ (Φ : Amp) {w : Int → Nat}, Good w → ∀ b, lift (swapIn a b ((1 : Nat) : ZMod 2) Φ) w = _ := fun Φ w hw b => lift_swapIn Φ hw a b (by omega)
  rw [h0 Φ hw, h0 Ψ hw', h1 Φ hw, h1 Ψ hw', h0 Φ hw, h0 Ψ hw', h1 Φ hw, h1 Ψ hw']
  rcases good_cases hw a with h | h <;> rcases good_cases hw' a with h' | h' <;> simp [h, h']

/-- `PlaceHolder` and `TraceState`. -/
theorem holder_acts (n : Nat) (a : Int) (Φ Ψ : Amp) (c c' : Int → Nat) {w w' : Int → Nat} (hw : Good w) (hw' : Good w') :
    evolveDens (densActs ctr (n + 1) [(placeHolder, [a]), (traceState, [a])]) (rk Φ Ψ) w w' =
      sumOver bits [a] (fun x => sumOver bits [a] (fun y => rk (swapIn a (x a : ZMod 2) (y a : ZMod 2) Φ) (swapIn a (x a : ZMod 2) (y a : ZMod 2) Ψ) w w') c') c := by
  rw [← pair_swap Φ Ψ a c c' hw hw']
  show (actAt ctr (n + 1) traceState [a]).applyDens ((actAt ctr (n + 1) placeHolder [a]).applyDens (rk Φ Ψ)) w w' = _
  rw [applyDens_traceState a _ hw hw', applyDens_placeHolder]

/-- `Trace` and `TraceState`. -/
theorem refresh_acts (n : Nat) (a : Int) (Φ Ψ : Amp) (c c' : Int → Nat) {w w' : Int → Nat} (hw : Good w) (hw' : Good w') :
    evolveDens (densActs ctr (n + 1) [(traceOp, [a]), (traceState, [a])]) (rk Φ Ψ) w w' =
      sumOver bits [a] (fun x => sumOver bits [a] (fun y => rk (swapIn a (x a : ZMod 2) (y a : ZMod 2) Φ) (swapIn a (x a : ZMod 2) (y a : ZMod 2) Ψ) w w') c') c := by
  rw [← pair_swap Φ Ψ a c c' hw hw']
  show (actAt ctr (n + 1) traceState [a]).applyDens ((actAt ctr (n + 1) traceOp [a]).applyDens (rk Φ Ψ)) w w' = _
  rw [applyDens_traceState a _ hw hw', applyDens_trace]

theorem zeroState_dens (n : Nat) (a : Int) (ρ : (Int → Nat) → (Int → Nat) → ℂ) (w w' : Int → Nat) :
    (actAt ctr (n + 1) zeroState [a]).applyDens ρ w w' = if w a = 0 ∧ w' a = 0 then ρ w w' else 0 := applyDens_state (b := 0) a ρ w w'

/-- `Trace` and `ZeroState`. -/
theorem clear_acts (n : Nat) (a : Int) (Φ Ψ : Amp) (c : Int → Nat) {w w' : Int → Nat} (hw : Good w) (hw' : Good w') :
    evolveDens (densActs ctr (n + 1) [(traceOp, [a]), (zeroState, [a])]) (rk Φ Ψ) w w' =
      sumOver bits [a] (fun x => rk (swapIn a (x a : ZMod 2) 0 Φ) (swapIn a (x a : ZMod 2) 0 Ψ) w w') c := by
  show (actAt ctr (n + 1) zeroState [a]).applyDens ((actAt ctr (n + 1) traceOp [a]).applyDens (rk Φ Ψ)) w w' = _
  rw [zeroState_dens, applyDens_trace, sumOver_one]
  simp only [update_self]
  unfold rk
  rw [lift_update, lift_update, lift_update, lift_update]
  have h0 : ∀ (Φ : Amp) {w : Int → Nat}, Good w → ∀ b, lift (swapIn a b 0 Φ) w = _ := fun Φ w hw b =>
    (by rw [Nat.cast_zero] : lift (swapIn a b 0 Φ) w = lift (swapIn a b ((0 : Nat) : ZMod 2) Φ) w).trans (lift_swapIn Φ hw a b (by omega))
  rw [h0 Φ hw, h0 Ψ hw', h0 Φ hw, h0 Ψ hw']
  rcases good_cases hw a with h | h <;> rcases good_cases hw' a with h' | h' <;> simp [h, h']

/-- Pure operations act on both factors. -/
theorem pure_acts {n : Nat} {l : List (Oper ℂ × List Int)} {U : Amp → Amp}
    (hp : List.Forall₂ Act.Paired (densActs ctr n l) (acts ctr n l)) (h : ∀ (Φ : Amp) {w : Int → Nat}, Good w → evolve (acts ctr n l) (lift Φ) w = lift (U Φ) w)
    (Φ Ψ : Amp) {w w' : Int → Nat} (hw : Good w) (hw' : Good w') : evolveDens (densActs ctr n l) (rk Φ Ψ) w w' = rk (U Φ) (U Ψ) w w' := by
  rw [evolveDens_paired hp (ψ := lift Φ) (φ := lift Ψ) (ρ := rk Φ Ψ) (fun _ _ _ _ => rfl) hw hw', h Φ hw, h Ψ hw']
  rfl

theorem paired_of {n : Nat} {op : Oper ℂ} (h : ∀ idx, densMatrix ctr n op idx = pairMat (matrix ctr n op) (idx.length / 2) idx) (qs : List Int) :
    Act.Paired (actAt ctr n op qs) ⟨matrix ctr n op, inQubits (shapeD (shapes ctr n) op) qs, outQubits (shapeD (shapes ctr n) op) qs⟩ :=
  ⟨rfl, rfl, fun _ _ hx hy => (h _).trans (pairMat_append hx.1 hy.1)⟩

theorem paired_h (n : Nat) (qs : List Int) : Act.Paired (actAt ctr (n + 1) hGateOp qs) ⟨matrix ctr (n + 1) hGateOp,
    inQubits (shapeD (shapes ctr (n + 1)) hGateOp) qs, outQubits (shapeD (shapes ctr (n + 1)) hGateOp) qs⟩ := paired_of (fun _ => rfl) qs

theorem paired_cz (n : Nat) (qs : List Int) : Act.Paired (actAt ctr (n + 1) czOp qs) ⟨matrix ctr (n + 1) czOp,
    inQubits (shapeD (shapes ctr (n + 1)) czOp) qs, outQubits (shapeD (shapes ctr (n + 1)) czOp) qs⟩ := paired_of (fun _ => rfl) qs

theorem paired_cnot (n : Nat) (qs : List Int) : Act.Paired (actAt ctr (n + 1) cnotOp qs) ⟨matrix ctr (n + 1) cnotOp,
    inQubits (shapeD (shapes ctr (n + 1)) cnotOp) qs, outQubits (shapeD (shapes ctr (n + 1)) cnotOp) qs⟩ := paired_of (fun _ => rfl) qs

/-- The gates of a stabilizer measurement. -/
theorem gates_acts (n : Nat) {l : List Int} {E : List (Int × Int)} (hE : ∀ e ∈ E, e.1 ≠ e.2) (Φ Ψ : Amp) {w w' : Int → Nat} (hw : Good w) (hw' : Good w') :
    evolveDens (densActs ctr (n + 1) (l.map (fun q => (hGateOp, [q])) ++ E.map (fun e => (czOp, [e.1, e.2])) ++ l.map (fun q => (hGateOp, [q])))) (rk Φ Ψ) w w' =
      rk (hs l (czs E (hs l Φ))) (hs l (czs E (hs l Ψ))) w w' := by
  refine pure_acts (U := fun Φ => hs l (czs E (hs l Φ))) ?_ ?_ Φ Ψ hw hw'
  · unfold densActs acts
    rw [List.forall₂_map_left_iff, List.forall₂_map_right_iff, List.forall₂_same]
    intro x hx
    simp only [List.mem_append, List.mem_map] at hx
    rcases hx with (⟨q, -, rfl⟩ | ⟨e, -, rfl⟩) | ⟨q, -, rfl⟩
    · exact paired_h n _
    · exact paired_cz n _
    · exact paired_h n _
  · intro Φ w hw
    have ha : ∀ a b, acts ctr (n + 1) (a ++ b) = acts ctr (n + 1) a ++ acts ctr (n + 1) b := fun a b => List.map_append
    rw [ha, ha, evolve_append, evolve_append, ← hs_acts (ctr := ctr) n l _ hw]
    refine evolve_good (fun w hw => ?_) hw
    rw [← czs_acts (ctr := ctr) n hE _ hw]
    exact evolve_good (fun w hw => hs_acts n l Φ hw) hw

end Oper

end Verif
