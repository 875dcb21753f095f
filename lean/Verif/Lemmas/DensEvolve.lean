import Verif.Spec.Density
import Verif.Lemmas.Duality
import Verif.Props.Adjoint
import Verif.Lemmas.CircMat
/-!
# Density matrices as states of twice as many qubits

Qubit `2 q` stands for the first and qubit `2 q + 1` for the second index of a density matrix.
-/

set_option linter.unusedSectionVars false

namespace Verif

variable {R : Type} [CommSemiring R]

/-- Both copies of the qubits. -/
def twice (l : List Int) : List Int := l.map (fun q => 2 * q) ++ l.map (fun q => 2 * q + 1)

theorem mem_twice {l : List Int} {k : Int} : k ∈ twice l ↔ k / 2 ∈ l := by
  unfold twice
  rw [List.mem_append, List.mem_map, List.mem_map]
  constructor
  · rintro (⟨q, h, rfl⟩ | ⟨q, h, rfl⟩)
    · rwa [show 2 * q / 2 = q by omega]
    · rwa [show (2 * q + 1) / 2 = q by omega]
  · intro h
    rcases Int.emod_two_eq_zero_or_one k with h0 | h0
    · exact Or.inl ⟨_, h, by omega⟩
    · exact Or.inr ⟨_, h, by omega⟩

theorem twice_nodup {l : List Int} (h : l.Nodup) : (twice l).Nodup := by
  refine List.nodup_append.2 ⟨h.map fun a b h => ?_, h.map fun a b h => ?_, fun a ha b hb e => ?_⟩
  · omega
  · omega
  · obtain ⟨q, -, rfl⟩ := List.mem_map.1 ha
    obtain ⟨q', -, rfl⟩ := List.mem_map.1 hb
    omega

theorem twice_length (l : List Int) : (twice l).length = 2 * l.length := by simp [twice]; omega

/-- The entries of an operation on density matrices as those of an operation on twice as many qubits. -/
def twiceTen (n m : Nat) (D : List Nat → R) (idx : List Nat) : R :=
  D (idx.take n ++ (idx.drop (n + n)).take m ++ (idx.drop n).take n ++ idx.drop (n + n + m))

theorem twiceTen_append {n m : Nat} (D : List Nat → R) {a b c d : List Nat} (ha : a.length = n) (hb : b.length = n)
    (hc : c.length = m) : twiceTen n m D (a ++ b ++ (c ++ d)) = D (a ++ c ++ b ++ d) := by
  subst ha hc
  unfold twiceTen
  congr 2
  · congr 1
    · congr 1
      · simp
      · rw [List.drop_append_of_le_length (by simp [hb]), List.drop_of_length_le (by simp [hb])]
        simp
    · rw [List.append_assoc, List.drop_left, List.take_left' hb]
  · rw [show a ++ b ++ (c ++ d) = (a ++ b ++ c) ++ d by simp]
    exact List.drop_left' (by simp [hb]; omega)

/-- An operation on density matrices as an operation on twice as many qubits. -/
def Act.twice (p : Act R) : Act R := ⟨twiceTen p.outs.length p.ins.length p.ten, Verif.twice p.ins, Verif.twice p.outs⟩

/-- A density matrix as a state of twice as many qubits. -/
def splitDens (ρ : (Int → Nat) → (Int → Nat) → R) (W : Int → Nat) : R := ρ (fun q => W (2 * q)) fun q => W (2 * q + 1)

/-- Two assignments as one. -/
def joinAsg (w w' : Int → Nat) (k : Int) : Nat := if k % 2 = 0 then w (k / 2) else w' (k / 2)

@[simp] theorem joinAsg_even (w w' : Int → Nat) (q : Int) : joinAsg w w' (2 * q) = w q := by
  unfold joinAsg
  rw [if_pos (by omega), show 2 * q / 2 = q by omega]

@[simp] theorem joinAsg_odd (w w' : Int → Nat) (q : Int) : joinAsg w w' (2 * q + 1) = w' q := by
  unfold joinAsg
  rw [if_neg (by omega), show (2 * q + 1) / 2 = q by omega]

theorem splitDens_join (ρ : (Int → Nat) → (Int → Nat) → R) (w w' : Int → Nat) : splitDens ρ (joinAsg w w') = ρ w w' := by
  unfold splitDens
  simp

theorem sumOver_even (l : List Int) (f : (Int → Nat) → (Int → Nat) → R) (W : Int → Nat) :
    sumOver bits (l.map fun q => 2 * q) (fun Y => f (fun q => Y (2 * q)) fun q => Y (2 * q + 1)) W =
      sumOver bits l (fun x => f x fun q => W (2 * q + 1)) fun q => W (2 * q) := by
  induction l generalizing W with
  | nil => rfl
  | cons q l ih =>
    rw [List.map_cons, sumOver_cons, sumOver_cons]
    refine Finset.sum_congr rfl fun x _ => ?_
    rw [ih]
    have e1 : (fun q' => Function.update W (2 * q) x (2 * q' + 1)) = fun q' => W (2 * q' + 1) := by
      funext q'
      rw [Function.update_of_ne (by omega)]
    have e2 : (fun q' => Function.update W (2 * q) x (2 * q')) = Function.update (fun q' => W (2 * q')) q x := by
      funext q'
      by_cases h : q' = q
      · subst h; simp
      · rw [Function.update_of_ne (by omega), Function.update_of_ne h]
    rw [e1, e2]

theorem sumOver_odd (l : List Int) (f : (Int → Nat) → (Int → Nat) → R) (W : Int → Nat) :
    sumOver bits (l.map fun q => 2 * q + 1) (fun Y => f (fun q => Y (2 * q)) fun q => Y (2 * q + 1)) W =
      sumOver bits l (fun x => f (fun q => W (2 * q)) x) fun q => W (2 * q + 1) := by
  induction l generalizing W with
  | nil => rfl
  | cons q l ih =>
    rw [List.map_cons, sumOver_cons, sumOver_cons]
    refine Finset.sum_congr rfl fun x _ => ?_
    rw [ih]
    have e1 : (fun q' => Function.update W (2 * q + 1) x (2 * q')) = fun q' => W (2 * q') := by
      funext q'
      rw [Function.update_of_ne (by omega)]
    have e2 : (fun q' => Function.update W (2 * q + 1) x (2 * q' + 1)) = Function.update (fun q' => W (2 * q' + 1)) q x := by
      funext q'
      by_cases h : q' = q
      · subst h; simp
      · rw [Function.update_of_ne (by omega), Function.update_of_ne h]
    rw [e1, e2]

/-- The doubled operation acts as the operation on density matrices. -/
theorem Act.twice_apply (p : Act R) (ρ : (Int → Nat) → (Int → Nat) → R) :
    p.twice.apply (splitDens ρ) = splitDens (p.applyDens ρ) := by
  funext W
  unfold Act.apply splitDens Act.applyDens
  show sumOver bits (Verif.twice p.ins) (fun x => twiceTen _ _ p.ten ((Verif.twice p.outs).map W ++ (Verif.twice p.ins).map x) * _) W = _
  have e : ∀ x : Int → Nat, twiceTen p.outs.length p.ins.length p.ten ((Verif.twice p.outs).map W ++ (Verif.twice p.ins).map x) =
      p.ten (p.outs.map (fun q => W (2 * q)) ++ p.ins.map (fun q => x (2 * q)) ++ p.outs.map (fun q => W (2 * q + 1)) ++
        p.ins.map fun q => x (2 * q + 1)) := fun x => by
    unfold Verif.twice
    rw [List.map_append, List.map_append, List.map_map, List.map_map, List.map_map, List.map_map]
    exact twiceTen_append _ (by simp) (by simp) (by simp)
  simp only [e]
  rw [Verif.twice, sumOver_append]
  have h1 : ∀ Y : Int → Nat, sumOver bits (p.ins.map fun q => 2 * q + 1) (fun x => p.ten (p.outs.map (fun q => W (2 * q)) ++
      p.ins.map (fun q => x (2 * q)) ++ p.outs.map (fun q => W (2 * q + 1)) ++ p.ins.map fun q => x (2 * q + 1)) *
      ρ (fun q => x (2 * q)) fun q => x (2 * q + 1)) Y = sumOver bits p.ins (fun x' => p.ten (p.outs.map (fun q => W (2 * q)) ++
      p.ins.map (fun q => Y (2 * q)) ++ p.outs.map (fun q => W (2 * q + 1)) ++ p.ins.map x') *
      ρ (fun q => Y (2 * q)) x') fun q => Y (2 * q + 1) := fun Y =>
    sumOver_odd p.ins (fun a b => p.ten (p.outs.map (fun q => W (2 * q)) ++ p.ins.map a ++
      p.outs.map (fun q => W (2 * q + 1)) ++ p.ins.map b) * ρ a b) Y
  simp only [h1]
  exact sumOver_even p.ins (fun a b => sumOver bits p.ins (fun x' => p.ten (p.outs.map (fun q => W (2 * q)) ++ p.ins.map a ++
      p.outs.map (fun q => W (2 * q + 1)) ++ p.ins.map x') * ρ a x') b) W

theorem evolve_twice (l : List (Act R)) (ρ : (Int → Nat) → (Int → Nat) → R) :
    evolve (l.map Act.twice) (splitDens ρ) = splitDens (evolveDens l ρ) := by
  induction l generalizing ρ with
  | nil => rfl
  | cons p l ih => rw [List.map_cons, evolve, evolveDens, Act.twice_apply, ih]

theorem basisState_twice (Q : List Int) (v v' : Int → Nat) :
    (basisState (twice Q) (joinAsg v v') : (Int → Nat) → R) = splitDens (basisDens Q v v') := by
  funext W
  unfold basisState splitDens basisDens
  refine if_congr ?_ rfl rfl
  constructor
  · intro h
    exact ⟨fun q hq => by show W (2 * q) = v q; rw [h _ (mem_twice.2 (by rwa [show 2 * q / 2 = q by omega])), joinAsg_even],
      fun q hq => by show W (2 * q + 1) = v' q; rw [h _ (mem_twice.2 (by rwa [show (2 * q + 1) / 2 = q by omega])), joinAsg_odd]⟩
  · rintro ⟨h1, h2⟩ k hk
    rw [mem_twice] at hk
    rcases Int.emod_two_eq_zero_or_one k with h0 | h0
    · have : W (2 * (k / 2)) = v (k / 2) := h1 _ hk
      rw [show 2 * (k / 2) = k by omega] at this
      rw [this, joinAsg, if_pos h0]
    · have : W (2 * (k / 2) + 1) = v' (k / 2) := h2 _ hk
      rw [show 2 * (k / 2) + 1 = k by omega] at this
      rw [this, joinAsg, if_neg (by omega)]

/-- Both copies of a sequence of operations. -/
theorem flows_twice {l : List (Act R)} : ∀ {Q Q2 : List Int}, Flows Q l → Q2.Nodup → (∀ k, k ∈ Q2 ↔ k / 2 ∈ Q) →
    Flows Q2 (l.map Act.twice) ∧ ∀ k, k ∈ afterAll Q2 (l.map Act.twice) ↔ k / 2 ∈ afterAll Q l := by
  induction l with
  | nil => exact fun _ h2 h => ⟨h2, h⟩
  | cons p l ih =>
    rintro Q Q2 ⟨-, a1, a2, a3, a4, a5⟩ h2 h
    have hi : ∀ k, k ∈ p.twice.ins ↔ k / 2 ∈ p.ins := fun k => mem_twice
    have ho : ∀ k, k ∈ p.twice.outs ↔ k / 2 ∈ p.outs := fun k => mem_twice
    have hno : p.twice.outs.Nodup := twice_nodup a4
    obtain ⟨b1, b2⟩ := ih (Q2 := p.twice.after Q2) a5 (by
      refine List.nodup_append.2 ⟨h2.filter _, hno, fun x hx y hy e => ?_⟩
      subst e
      obtain ⟨h3, h4⟩ := List.mem_filter.1 hx
      rw [decide_eq_true_eq, hi] at h4
      exact h4 (a2 _ ((ho x).1 hy) ((h x).1 h3))) (fun k => by rw [mem_after, mem_after, h, hi, ho])
    refine ⟨⟨h2, fun k hk => (h k).2 (a1 _ ((hi k).1 hk)), fun k hk hk2 => (hi k).2 (a2 _ ((ho k).1 hk) ((h k).1 hk2)),
      twice_nodup a3, hno, b1⟩, b2⟩

/-! ### The circuit on twice as many qubits, run backwards -/

theorem portsAt_map {s : List (List Letter)} {qs : List Int} {f : Int → Int} (hf : ∀ q q', f q = f q' → q = q') (q : Int) :
    portsAt s (qs.map f) (f q) = portsAt s qs q := by
  induction qs generalizing s with
  | nil => rfl
  | cons p qs ih =>
    cases s with
    | nil => rfl
    | cons w s =>
      have := ih (s := s)
      unfold portsAt at this ⊢
      rw [List.map_cons, List.zip_cons_cons, List.zip_cons_cons, List.filter_cons, List.filter_cons]
      by_cases h : p = q
      · subst h
        simp only [decide_true, if_true, List.flatMap_cons, this]
      · have h' : ¬ f p = f q := fun e => h (hf _ _ e)
        simp only [h, h', decide_false, Bool.false_eq_true, if_false, this]

theorem portsAt_append {s s' : List (List Letter)} {qs qs' : List Int} (hl : s.length = qs.length) (q : Int) :
    portsAt (s ++ s') (qs ++ qs') q = portsAt s qs q ++ portsAt s' qs' q := by
  unfold portsAt
  rw [List.zip_append hl.symm, List.filter_append, List.flatMap_append]

theorem portsAt_twice {s : List (List Letter)} {qs : List Int} (hl : s.length = qs.length) (k : Int) :
    portsAt (s ++ s) (twice qs) k = portsAt s qs (k / 2) := by
  unfold twice
  rw [portsAt_append (by simpa using hl)]
  rcases Int.emod_two_eq_zero_or_one k with h0 | h0
  · have e : portsAt s (qs.map fun q => 2 * q + 1) k = [] := portsAt_nil fun h => by
      obtain ⟨q, -, h⟩ := List.mem_map.1 h
      omega
    rw [e, List.append_nil]
    conv_lhs => rw [show k = (fun q : Int => 2 * q) (k / 2) by dsimp only; omega]
    exact portsAt_map (fun q q' h => by omega) _
  · have e : portsAt s (qs.map fun q => 2 * q) k = [] := portsAt_nil fun h => by
      obtain ⟨q, -, h⟩ := List.mem_map.1 h
      omega
    rw [e, List.nil_append]
    conv_lhs => rw [show k = (fun q : Int => 2 * q + 1) (k / 2) by dsimp only; omega]
    exact portsAt_map (fun q q' h => by omega) _

theorem filter_twice (P : Int → Bool) (l : List Int) : (twice l).filter (fun k => P (k / 2)) = twice (l.filter P) := by
  have e1 : ∀ q : Int, 2 * q / 2 = q := fun q => by omega
  have e2 : ∀ q : Int, (2 * q + 1) / 2 = q := fun q => by omega
  unfold twice
  rw [List.filter_append, List.filter_map, List.filter_map]
  simp only [Function.comp_def, e1, e2]

namespace Circ

variable {α : Type}

/-- The shape on twice as many qubits, run backwards. -/
def dualShape (sh : ShapeFn α) (a : α) : Except Err (List (List Letter)) :=
  (sh a).map fun s => flipShape s ++ flipShape s

/-- The operation on twice as many qubits, run backwards in time. -/
def dualRec (r : OpRec α) : OpRec α := ⟨r.op, -r.time, twice r.qubits⟩

/-- The entry on twice as many qubits, run backwards in time. -/
def dualEntry (p : Nm × OpRec α) : Nm × OpRec α := (p.1, dualRec p.2)

/-- The entries of the transposed operation on twice as many qubits. -/
def dualTen (sh : ShapeFn α) (D : α → List Nat → R) (a : α) (idx : List Nat) : R :=
  let o := (outPlaces (shapeD sh a)).length
  let i := (inPlaces (shapeD sh a)).length
  twiceTen o i (D a) (idx.drop (i + i) ++ idx.take (i + i))

variable {sh : ShapeFn α} {D : α → List Nat → R}

/-- The shape of the operation fits its qubits. -/
def FitRec (sh : ShapeFn α) (r : OpRec α) : Prop := ∃ s, sh r.op = .ok s ∧ s.length = r.qubits.length ∧ r.qubits.Nodup

theorem dual_shapeD {r : OpRec α} (h : FitRec sh r) :
    shapeD (dualShape sh) r.op = flipShape (shapeD sh r.op) ++ flipShape (shapeD sh r.op) := by
  obtain ⟨s, h1, -⟩ := h
  simp [shapeD, dualShape, h1, Except.map]

theorem FitRec.len {r : OpRec α} (h : FitRec sh r) : (shapeD sh r.op).length = r.qubits.length := by
  obtain ⟨s, h1, h2, -⟩ := h
  simp [shapeD, h1, h2]

theorem FitRec.nodup {r : OpRec α} (h : FitRec sh r) : r.qubits.Nodup := h.choose_spec.2.2

theorem flipShape_length (s : List (List Letter)) : (flipShape s).length = s.length := by simp [flipShape]

theorem dual_ports {r : OpRec α} (h : FitRec sh r) (k : Int) :
    portsAt (shapeD (dualShape sh) (dualRec r).op) (dualRec r).qubits k = flipWord (portsAt (shapeD sh r.op) r.qubits (k / 2)) := by
  show portsAt (shapeD (dualShape sh) r.op) (twice r.qubits) k = _
  rw [dual_shapeD h, portsAt_twice (by rw [flipShape_length, h.len]), portsAt_flip h.nodup]

theorem dual_ins {r : OpRec α} (h : FitRec sh r) (D : α → List Nat → R) :
    (actOf (dualShape sh) (dualTen sh D) (dualRec r)).ins = twice (actOf sh D r).outs := by
  show inQubits (shapeD (dualShape sh) (dualRec r).op) (dualRec r).qubits = twice (outQubits (shapeD sh r.op) r.qubits)
  unfold inQubits outQubits
  rw [← filter_twice]
  show (twice r.qubits).filter _ = _
  refine List.filter_congr fun k _ => ?_
  rw [dual_ports h]
  exact decide_eq_decide.2 (flipWord_head _)

theorem dual_outs {r : OpRec α} (h : FitRec sh r) (D : α → List Nat → R) :
    (actOf (dualShape sh) (dualTen sh D) (dualRec r)).outs = twice (actOf sh D r).ins := by
  show outQubits (shapeD (dualShape sh) (dualRec r).op) (dualRec r).qubits = twice (inQubits (shapeD sh r.op) r.qubits)
  unfold inQubits outQubits
  rw [← filter_twice]
  show (twice r.qubits).filter _ = _
  refine List.filter_congr fun k _ => ?_
  rw [dual_ports h]
  exact decide_eq_decide.2 (flipWord_last _)

theorem act_outs_length {r : OpRec α} (h : FitRec sh r) (D : α → List Nat → R) :
    (actOf sh D r).outs.length = (outPlaces (shapeD sh r.op)).length := outQubits_length h.len h.nodup

theorem act_ins_length {r : OpRec α} (h : FitRec sh r) (D : α → List Nat → R) :
    (actOf sh D r).ins.length = (inPlaces (shapeD sh r.op)).length := inQubits_length h.len h.nodup

theorem dualTen_append {r : OpRec α} (h : FitRec sh r) {a b c d : List Nat} (ha : a.length = (actOf sh D r).outs.length)
    (hb : b.length = (actOf sh D r).outs.length) (hc : c.length = (actOf sh D r).ins.length)
    (hd : d.length = (actOf sh D r).ins.length) :
    dualTen sh D r.op (c ++ d ++ (a ++ b)) = D r.op (a ++ c ++ b ++ d) := by
  rw [act_outs_length h] at ha hb
  rw [act_ins_length h] at hc hd
  unfold dualTen
  dsimp only
  rw [List.drop_left' (by simp [hc, hd]), List.take_left' (by simp [hc, hd])]
  exact twiceTen_append _ ha hb hc

theorem dual_transposes {r : OpRec α} (h : FitRec sh r) (D : α → List Nat → R) :
    (actOf (dualShape sh) (dualTen sh D) (dualRec r)).Transposes (actOf sh D r).twice := by
  refine ⟨dual_ins h D, dual_outs h D, fun w x _ _ => ?_⟩
  show dualTen sh D r.op ((twice (actOf sh D r).ins).map x ++ (twice (actOf sh D r).outs).map w) =
    twiceTen _ _ (D r.op) ((twice (actOf sh D r).outs).map w ++ (twice (actOf sh D r).ins).map x)
  unfold twice
  rw [List.map_append, List.map_append, dualTen_append h (by simp) (by simp) (by simp) (by simp),
    twiceTen_append _ (by simp) (by simp) (by simp)]

theorem dual_word {l : Circ α} (h : ∀ p ∈ l, FitRec sh p.2) (k : Int) :
    wireWord (dualShape sh) k (l.map dualEntry).reverse = flipWord (wireWord sh (k / 2) l) := by
  induction l with
  | nil => rfl
  | cons p l ih =>
    have e : wireWord (dualShape sh) k [dualEntry p] = flipWord (portsAt (shapeD sh p.2.op) p.2.qubits (k / 2)) := by
      rw [← dual_ports (h p (by simp))]
      simp [wireWord, dualEntry]
    rw [List.map_cons, List.reverse_cons, wireWord_cons, flipWord_append, ← ih fun p hp => h p (by simp [hp]), ← e]
    simp [wireWord]

theorem dual_wired {l : Circ α} (h : ∀ p ∈ l, FitRec sh p.2) (hw : Wired sh l) : Wired (dualShape sh) (l.map dualEntry).reverse := by
  refine ⟨fun k => ?_, fun k => ?_⟩
  · unfold touch
    rw [List.filter_reverse, List.pairwise_reverse, List.filter_map, List.pairwise_map]
    have := hw.times (k / 2)
    unfold touch at this
    have e : (fun p : Nm × OpRec α => decide (k ∈ (dualEntry p).2.qubits)) = fun p => decide (k / 2 ∈ p.2.qubits) := by
      funext p
      exact decide_eq_decide.2 mem_twice
    refine List.Pairwise.imp (fun {a b} hab => ?_) (show ((l.filter ((fun p => decide (k ∈ p.2.qubits)) ∘ dualEntry)).Pairwise _) from by
      rw [Function.comp_def, e]; exact this)
    show -b.2.time < -a.2.time
    omega
  · rw [dual_word h]
    exact flipWord_connectable (hw.chain _)

end Circ

end Verif
