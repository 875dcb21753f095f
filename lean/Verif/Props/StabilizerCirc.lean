import Verif.Props.Stabilizer
import Mathlib.Data.Nat.Pairing
import Mathlib.Logic.Equiv.Nat
import Mathlib.Data.Finset.Sort
/-!
# C67: `tensor_pure` of the circuits of `x_stab_meas` and `z_stab_meas`
-/

namespace Verif

namespace Oper

open Circ Qec Function

set_option linter.unusedSimpArgs false

variable {ctr : TVal ℂ → Except Err (Arr ℂ)}

/-- The ends on wire `q`, in order. -/
def wordOf (sh : ShapeFn (Oper ℂ)) (l : List (Oper ℂ × List Int)) (q : Int) : List Port := l.flatMap fun x => portsAt (shapeD sh x.1) x.2 q

/-- `k` times in and out. -/
def through : Nat → List Port
  | 0 => []
  | k + 1 => .inp :: .out :: through k

theorem through_add (k j : Nat) : through (k + j) = through k ++ through j := by
  induction k with
  | zero => simp [through]
  | succ k ih => rw [Nat.succ_add]; simp [through, ih]

theorem through_chain (k : Nat) : Connectable (.out :: through k) ∧ Connectable (through k) := by
  unfold Connectable
  induction k with
  | zero => simp [through]
  | succ k ih =>
    simp only [through]
    refine ⟨?_, ?_⟩
    · exact List.isChain_cons_cons.2 ⟨by simp, List.isChain_cons_cons.2 ⟨by simp, ih.1⟩⟩
    · exact List.isChain_cons_cons.2 ⟨by simp, ih.1⟩

theorem through_last (k : Nat) (x : Port) : ((x :: through k).getLast?) = some (if k = 0 then x else .out) := by
  induction k generalizing x with
  | zero => simp [through]
  | succ k ih =>
    simp only [through, List.getLast?_cons_cons]
    rw [ih]
    simp

theorem through_ends (k : Nat) : ((through k).getLast? = some .out ↔ 0 < k) ∧ ((through k).head? = some .inp ↔ 0 < k) := by
  cases k with
  | zero => simp [through]
  | succ k =>
    simp only [through, List.getLast?_cons_cons, through_last]
    refine ⟨?_, by simp⟩
    split <;> simp

/-- All operations pass through: on each wire in, out, in, out …, as often as they use the wire. -/
def Thru (sh : ShapeFn (Oper ℂ)) (l : List (Oper ℂ × List Int)) : Prop :=
  ∀ q, ∃ k, wordOf sh l q = through k ∧ (0 < k ↔ ∃ x ∈ l, q ∈ x.2)

theorem Thru.append {sh : ShapeFn (Oper ℂ)} {l l' : List (Oper ℂ × List Int)} (h : Thru sh l) (h' : Thru sh l') : Thru sh (l ++ l') := by
  intro q
  obtain ⟨k, h1, h2⟩ := h q
  obtain ⟨j, h3, h4⟩ := h' q
  refine ⟨k + j, ?_, ?_⟩
  · unfold wordOf at *
    rw [List.flatMap_append, h1, h3, through_add]
  · rw [Nat.add_pos_iff_pos_or_pos, h2, h4]
    simp only [List.mem_append]
    constructor
    · rintro (⟨x, hx, hq⟩ | ⟨x, hx, hq⟩)
      · exact ⟨x, Or.inl hx, hq⟩
      · exact ⟨x, Or.inr hx, hq⟩
    · rintro ⟨x, hx | hx, hq⟩
      · exact Or.inl ⟨x, hx, hq⟩
      · exact Or.inr ⟨x, hx, hq⟩

theorem Thru.nil {sh : ShapeFn (Oper ℂ)} : Thru sh [] := fun q => ⟨0, rfl, by simp⟩

theorem Thru.flatMap {sh : ShapeFn (Oper ℂ)} {β : Type} {f : β → List (Oper ℂ × List Int)} {l : List β} (h : ∀ b ∈ l, Thru sh (f b)) : Thru sh (l.flatMap f) := by
  induction l with
  | nil => exact Thru.nil
  | cons b l ih =>
    rw [List.flatMap_cons]
    exact (h b List.mem_cons_self).append (ih fun b hb => h b (List.mem_cons_of_mem _ hb))

theorem Thru.map {sh : ShapeFn (Oper ℂ)} {β : Type} {f : β → Oper ℂ × List Int} {l : List β} (h : ∀ b ∈ l, Thru sh [f b]) : Thru sh (l.map f) := by
  rw [← List.flatMap_singleton' (l.map f), List.flatMap_map]
  exact Thru.flatMap h

theorem thru_h (n : Nat) (q : Int) : Thru (shapes ctr (n + 1)) [(hGateOp, [q])] := by
  intro p
  have : wordOf (shapes ctr (n + 1)) [(hGateOp, [q])] p = portsAt [[.i, .o]] [q] p := List.append_nil _
  rw [this]
  by_cases h : q = p
  · exact ⟨1, by simp [portsAt, Letter.ports, through, h], by simp [h]⟩
  · exact ⟨0, by simp [portsAt, Letter.ports, through, h], by simp [Ne.symm h]⟩

theorem thru_cz (n : Nat) {a d : Int} (hne : a ≠ d) : Thru (shapes ctr (n + 1)) [(czOp, [a, d])] := by
  intro p
  have : wordOf (shapes ctr (n + 1)) [(czOp, [a, d])] p = portsAt [[.c], [.c]] [a, d] p := List.append_nil _
  rw [this]
  by_cases h : a = p
  · subst h
    exact ⟨1, by simp [portsAt, Letter.ports, through, hne.symm], by simp⟩
  · by_cases h' : d = p
    · subst h'
      exact ⟨1, by simp [portsAt, Letter.ports, through, hne], by simp⟩
    · exact ⟨0, by simp [portsAt, Letter.ports, through, h, h'], by simp [Ne.symm h, Ne.symm h']⟩

theorem thru_cnot (n : Nat) {a d : Int} (hne : a ≠ d) : Thru (shapes ctr (n + 1)) [(cnotOp, [a, d])] := by
  intro p
  have : wordOf (shapes ctr (n + 1)) [(cnotOp, [a, d])] p = portsAt [[.c], [.i, .o]] [a, d] p := List.append_nil _
  rw [this]
  by_cases h : a = p
  · subst h
    exact ⟨1, by simp [portsAt, Letter.ports, through, hne.symm], by simp⟩
  · by_cases h' : d = p
    · subst h'
      exact ⟨1, by simp [portsAt, Letter.ports, through, hne], by simp⟩
    · exact ⟨0, by simp [portsAt, Letter.ports, through, h, h'], by simp [Ne.symm h, Ne.symm h']⟩

theorem thru_reset (n b : Nat) (q : Int) : Thru (shapes ctr (n + 1)) [(bitMeas b, [q]), (zeroState, [q])] := by
  intro p
  have : wordOf (shapes ctr (n + 1)) [(bitMeas b, [q]), (zeroState, [q])] p = portsAt [[.i]] [q] p ++ (portsAt [[.o]] [q] p ++ []) := rfl
  rw [this]
  by_cases h : q = p
  · exact ⟨1, by simp [portsAt, Letter.ports, through, h], by simp [h]⟩
  · exact ⟨0, by simp [portsAt, Letter.ports, through, h], by simp [Ne.symm h]⟩

theorem thru_stabOps (n : Nat) {l anc : List Int} {E : List (Int × Int)} (hE : ∀ e ∈ E, e.1 ≠ e.2) (out : Int → Nat) :
    Thru (shapes ctr (n + 1)) (stabOps l E anc out) := by
  unfold stabOps
  refine ((Thru.append (Thru.append ?_ ?_) ?_).append ?_)
  · exact Thru.map fun q _ => thru_h n q
  · exact Thru.map fun e he => thru_cz n (hE e he)
  · exact Thru.map fun q _ => thru_h n q
  · exact Thru.flatMap fun q _ => thru_reset n _ q

theorem mem_stabOps {l anc : List Int} {E : List (Int × Int)} {out : Int → Nat} {x : Oper ℂ × List Int} (h : x ∈ stabOps l E anc out) :
    (∃ q ∈ l, x = (hGateOp, [q])) ∨ (∃ e ∈ E, x = (czOp, [e.1, e.2])) ∨ (∃ q ∈ anc, x = (bitMeas (out q), [q])) ∨ ∃ q ∈ anc, x = (zeroState, [q]) := by
  unfold stabOps at h
  simp only [List.mem_append, List.mem_map, List.mem_flatMap, List.mem_cons, List.not_mem_nil, or_false] at h
  rcases h with ((⟨q, hq, rfl⟩ | ⟨e, he, rfl⟩) | ⟨q, hq, rfl⟩) | ⟨q, hq, rfl | rfl⟩
  · exact Or.inl ⟨q, hq, rfl⟩
  · exact Or.inr (Or.inl ⟨e, he, rfl⟩)
  · exact Or.inl ⟨q, hq, rfl⟩
  · exact Or.inr (Or.inr (Or.inl ⟨q, hq, rfl⟩))
  · exact Or.inr (Or.inr (Or.inr ⟨q, hq, rfl⟩))

theorem stabOps_appendable (n : Nat) {l anc : List Int} {E : List (Int × Int)} (hE : ∀ e ∈ E, e.1 ≠ e.2) (out : Int → Nat) :
    ∀ x ∈ stabOps l E anc out, Appendable (shapes ctr (n + 1)) x := by
  intro x hx
  rcases mem_stabOps hx with ⟨q, _, rfl⟩ | ⟨e, he, rfl⟩ | ⟨q, _, rfl⟩ | ⟨q, _, rfl⟩
  · exact ⟨[[.i, .o]], rfl, rfl, by simp⟩
  · exact ⟨[[.c], [.c]], rfl, rfl, by simpa using hE e he⟩
  · exact ⟨[[.i]], rfl, rfl, by simp⟩
  · exact ⟨[[.o]], rfl, rfl, by simp⟩

theorem stabOps_built (n : Nat) {l anc : List Int} {E : List (Int × Int)} {out : Int → Nat} (ho : Good out) :
    ∀ x ∈ stabOps l E anc out, Built ctr (n + 1) false x.1 := by
  intro x hx
  rcases mem_stabOps hx with ⟨q, _, rfl⟩ | ⟨e, he, rfl⟩ | ⟨q, _, rfl⟩ | ⟨q, _, rfl⟩
  · exact hGate_built n
  · exact cz_built n
  · exact bitMeas_built n (ho q)
  · exact zeroState_built n

/-- A circuit of operations that pass through, appended to the empty circuit. -/
theorem thru_tensor (hctr : Evaluates ctr) {n : Nat} {l : List (Oper ℂ × List Int)} (hb : ∀ x ∈ l, Built ctr (n + 1) false x.1)
    (hf : ∀ x ∈ l, Appendable (shapes ctr (n + 1)) x) (ht : Thru (shapes ctr (n + 1)) l) {Q : List Int} (hs : Q.Pairwise (· < ·))
    (hQ : ∀ q, q ∈ Q ↔ ∃ x ∈ l, q ∈ x.2) :
    ∃ c t, l.foldlM (fun c x => append (shapes ctr (n + 1)) c x.1 x.2) [] = .ok c ∧ Built ctr (n + 2) false (.circ c) ∧
      (iface ctr (n + 2)).tensor (.circ c) = .ok t ∧
      ∀ u v : Int → Nat, Good u → Good v → t.tot (Q.map u ++ Q.map v) = evolve (acts ctr (n + 1) l) (basisState Q v) u := by
  refine c63_tensor hctr hb hf (fun q => ?_) ⟨hs, fun q => ?_⟩ ⟨hs, fun q => ?_⟩
  · obtain ⟨k, h1, -⟩ := ht q
    unfold wordOf at h1
    rw [h1]
    exact (through_chain k).2
  · obtain ⟨k, h1, h2⟩ := ht q
    unfold wordOf at h1
    rw [h1, (through_ends k).1, h2, hQ]
  · obtain ⟨k, h1, h2⟩ := ht q
    unfold wordOf at h1
    rw [h1, (through_ends k).2, h2, hQ]

theorem basis_lift {Q anc : List Int} {v w : Int → Nat} (hv : Good v) (hw : Good w) (h0 : ∀ a ∈ anc, a ∈ Q ∧ v a = 0) :
    (basisState Q v w : ℂ) = lift (zeroed anc fun z => if ∀ q ∈ Q, z q = (v q : ZMod 2) then 1 else 0) w := by
  have hcast : ∀ {a b : Nat}, a < 2 → b < 2 → ((a : ZMod 2) = b ↔ a = b) := by
    intro a b ha hb
    interval_cases a <;> interval_cases b <;> decide
  unfold basisState lift zeroed
  beta_reduce
  have e1 : (∀ q ∈ Q, ((w q : Nat) : ZMod 2) = (v q : ZMod 2)) ↔ ∀ q ∈ Q, w q = v q := forall₂_congr fun q _ => hcast (hw q) (hv q)
  by_cases h : ∀ q ∈ Q, w q = v q
  · rw [if_pos h, if_pos, if_pos (e1.2 h)]
    intro a ha
    rw [h a (h0 a ha).1, (h0 a ha).2, Nat.cast_zero]
  · rw [if_neg h, if_neg (fun hh => h (e1.1 hh))]
    split <;> rfl

/-- **C67**: `z_stab_meas` as a circuit. For ancillas in state 0 `tensor_pure` maps a basis state to itself if the parity at each ancilla is the given
outcome, and to zero otherwise. -/
theorem c67_z_tensor (hctr : Evaluates ctr) {enc : Int × Int → Int} (he : Function.Injective enc) {coords : List (Int × Int)} (hc : coords.Nodup)
    {out : Int → Nat} (ho : Good out) (n : Nat) {Q : List Int} (hs : Q.Pairwise (· < ·)) (hQ : ∀ q, q ∈ Q ↔ ∃ x ∈ zOps enc coords out, q ∈ x.2) :
    ∃ c t, zStabMeas (shapes ctr (n + 1)) enc coords out [] = .ok c ∧ Built ctr (n + 2) false (.circ c) ∧
      (iface ctr (n + 2)).tensor (.circ c) = .ok t ∧
      ∀ u v : Int → Nat, Good u → Good v → (∀ a ∈ inGroups coords [.Z1, .Z2], v (enc a) = 0) → t.tot (Q.map u ++ Q.map v) =
        if (∀ q ∈ Q, u q = v q) ∧ ∀ a ∈ inGroups coords [.Z1, .Z2], (((coords.filter (adjacent a)).map fun d => u (enc d)).sum) % 2 = out (enc a)
        then 1 else 0 := by
  have hp : ((zDance.flatMap (slotPairs coords)).map orient).Perm (edges (inGroups coords [.Z1, .Z2]) coords) := c67_z_pairs hc
  have hE := (enc_edges he (l := [.Z1, .Z2]) (by decide) hp).2
  obtain ⟨c, t, h1, h2, h3, h4⟩ := thru_tensor hctr (stabOps_built n ho) (stabOps_appendable n hE out) (thru_stabOps n hE out) hs hQ
  refine ⟨c, t, h1, h2, h3, fun u v hu hv h0 => ?_⟩
  have hanc : ∀ a ∈ (inGroups coords [.Z1, .Z2]).map enc, a ∈ Q ∧ v a = 0 := by
    intro a ha
    obtain ⟨a', ha', rfl⟩ := List.mem_map.1 ha
    refine ⟨(hQ _).2 ⟨(hGateOp, [enc a']), ?_, by simp⟩, h0 a' ha'⟩
    unfold zOps stabOps
    simp only [List.mem_append, List.mem_map]
    exact Or.inl (Or.inr ⟨enc a', ⟨a', ha', rfl⟩, rfl⟩)
  rw [h4 u v hu hv, evolve_good (fun w hw => basis_lift hv hw hanc) hu]
  refine (c67_z he hc ho n _ hu).trans ?_
  have hb := basis_lift hv hu hanc
  unfold lift zeroed at hb ⊢
  beta_reduce at hb ⊢
  have hfold : ∀ (l : List (Int × Int)) (Φ : Amp) (z : Int → ZMod 2), l.foldl (fun Φ a => zproj (out (enc a) : ZMod 2) ((coords.filter (adjacent a)).map enc) Φ) Φ z =
      if ∀ a ∈ l, (out (enc a) : ZMod 2) + (((coords.filter (adjacent a)).map enc).map z).sum = 0 then Φ z else 0 := by
    exact fun l Φ z => zprojs_eq _ _ l Φ z
  have hpar : ∀ a, ((out (enc a) : ZMod 2) + (((coords.filter (adjacent a)).map enc).map fun q => ((u q : Nat) : ZMod 2)).sum = 0) ↔
      (((coords.filter (adjacent a)).map fun d => u (enc d)).sum) % 2 = out (enc a) := by
    intro a
    have e : (((coords.filter (adjacent a)).map enc).map fun q => ((u q : Nat) : ZMod 2)).sum =
        ((((coords.filter (adjacent a)).map fun d => u (enc d)).sum : Nat) : ZMod 2) := by
      rw [Nat.cast_list_sum, List.map_map, List.map_map]; rfl
    rw [e, ← Nat.cast_add]
    rw [ZMod.natCast_eq_zero_iff]
    have := ho (enc a)
    omega
  rw [hfold]
  simp only [hpar]
  unfold basisState at hb
  by_cases h : ∀ a ∈ inGroups coords [.Z1, .Z2], (((coords.filter (adjacent a)).map fun d => u (enc d)).sum) % 2 = out (enc a)
  · rw [if_pos h, ← hb]
    by_cases hq : ∀ q ∈ Q, u q = v q
    · rw [if_pos hq, if_pos ⟨hq, h⟩]
    · rw [if_neg hq, if_neg fun hh => hq hh.1]
  · rw [if_neg h, ite_self, if_neg fun hh => h hh.2]

/-- **C67**: `x_stab_meas` as a circuit: the projectors of the X stabilizers. -/
theorem c67_x_tensor (hctr : Evaluates ctr) {enc : Int × Int → Int} (he : Function.Injective enc) {coords : List (Int × Int)} (hc : coords.Nodup)
    {out : Int → Nat} (ho : Good out) (n : Nat) {Q : List Int} (hs : Q.Pairwise (· < ·)) (hQ : ∀ q, q ∈ Q ↔ ∃ x ∈ xOps enc coords out, q ∈ x.2) :
    ∃ c t, xStabMeas (shapes ctr (n + 1)) enc coords out [] = .ok c ∧ Built ctr (n + 2) false (.circ c) ∧
      (iface ctr (n + 2)).tensor (.circ c) = .ok t ∧
      ∀ u v : Int → Nat, Good u → Good v → (∀ a ∈ inGroups coords [.X1, .X2], v (enc a) = 0) → t.tot (Q.map u ++ Q.map v) =
        lift (zeroed ((inGroups coords [.X1, .X2]).map enc) ((inGroups coords [.X1, .X2]).foldl
          (fun Φ a => xproj (out (enc a) : ZMod 2) ((coords.filter (adjacent a)).map enc) Φ) fun z => if ∀ q ∈ Q, z q = (v q : ZMod 2) then 1 else 0)) u := by
  have hp : ((xDance.flatMap (slotPairs coords)).map orient).Perm (edges (inGroups coords [.X1, .X2]) coords) := c67_x_pairs hc
  have hE := (enc_edges he (l := [.X1, .X2]) (by decide) hp).2
  obtain ⟨c, t, h1, h2, h3, h4⟩ := thru_tensor hctr (stabOps_built n ho) (stabOps_appendable n hE out) (thru_stabOps n hE out) hs hQ
  refine ⟨c, t, h1, h2, h3, fun u v hu hv h0 => ?_⟩
  have hanc : ∀ a ∈ (inGroups coords [.X1, .X2]).map enc, a ∈ Q ∧ v a = 0 := by
    intro a ha
    obtain ⟨a', ha', rfl⟩ := List.mem_map.1 ha
    refine ⟨(hQ _).2 ⟨(zeroState, [enc a']), ?_, by simp⟩, h0 a' ha'⟩
    unfold xOps stabOps
    simp only [List.mem_append, List.mem_flatMap]
    exact Or.inr ⟨enc a', List.mem_map_of_mem ha', by simp⟩
  rw [h4 u v hu hv, evolve_good (fun w hw => basis_lift hv hw hanc) hu]
  exact c67_x he hc ho n _ hu

/-! ## The demo -/

/-- A numbering of the coordinates, for the examples. -/
def pairUp (q : Int × Int) : Int := (Nat.pair (Equiv.intEquivNat q.1) (Equiv.intEquivNat q.2) : Nat)

theorem pairUp_injective : Function.Injective pairUp := by
  intro p q h
  have h1 := Nat.pair_eq_pair.1 (Int.ofNat.inj h)
  exact Prod.ext (Equiv.intEquivNat.injective h1.1) (Equiv.intEquivNat.injective h1.2)

theorem sortLT (l : List Int) : (l.toFinset.sort (· ≤ ·)).Pairwise (· < ·) := (Finset.sortedLT_sort l.toFinset).pairwise

/-- The hypotheses of `c67_z_tensor` and `c67_x_tensor` hold for the demo: with all outcomes 0 the state 0…0 has amplitude 1 in the Z measurement. -/
example : ∃ c t Q, zStabMeas (shapes evalAll 1) pairUp demoCoords (fun _ => 0) [] = .ok c ∧ (iface evalAll 2).tensor (.circ c) = .ok t ∧
    t.tot ((Q : List Int).map (fun _ => 0) ++ Q.map fun _ => 0) = 1 := by
  obtain ⟨c, t, h1, -, h3, h4⟩ := c67_z_tensor evalAll_evaluates pairUp_injective demoCoords_nodup (out := fun _ => 0) (fun _ => Nat.zero_lt_two) 0
    (sortLT ((zOps pairUp demoCoords fun _ => 0).flatMap Prod.snd)) (fun q => by rw [Finset.mem_sort, List.mem_toFinset, List.mem_flatMap])
  refine ⟨c, t, ((zOps pairUp demoCoords fun _ => 0).flatMap Prod.snd).toFinset.sort (· ≤ ·), h1, h3, ?_⟩
  rw [h4 (fun _ => 0) (fun _ => 0) (fun _ => Nat.zero_lt_two) (fun _ => Nat.zero_lt_two) fun _ _ => rfl, if_pos]
  exact ⟨fun _ _ => rfl, fun a _ => by simp⟩

example : ∃ c t, xStabMeas (shapes evalAll 1) pairUp demoCoords (fun _ => 1) [] = .ok c ∧ (iface evalAll 2).tensor (.circ c) = .ok t := by
  obtain ⟨c, t, h1, -, h3, -⟩ := c67_x_tensor evalAll_evaluates pairUp_injective demoCoords_nodup (out := fun _ => 1) (fun _ => Nat.one_lt_two) 0
    (sortLT ((xOps pairUp demoCoords fun _ => 1).flatMap Prod.snd)) (fun q => by rw [Finset.mem_sort, List.mem_toFinset, List.mem_flatMap])
  exact ⟨c, t, h1, h3⟩

end Oper

end Verif
