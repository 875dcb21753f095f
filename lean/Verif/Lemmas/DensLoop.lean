import Verif.Lemmas.DensEvolve
import Verif.Model.Density
/-!
# The loops of `convert_density`

The converter goes forward in time.  Read backwards it is the converter of the circuit on twice as many qubits with all
operations transposed, so that the results on `Front` apply.
-/

set_option linter.unusedSectionVars false

namespace Verif

variable {R : Type} [CommSemiring R]

namespace Circ

variable {α τ : Type} [HasShape τ]

theorem densIns_spec {t : Int} {idx : Nat} {qs : List Int} {is : List Nat} {O : List Int}
    (h : List.Forall₂ (fun i q => qs[i]? = some q) is O) (hO : O.Nodup) (s : DConv τ) (hd : s.dicOut = s.dic)
    (hn : s.dic.keys.Nodup) (hni : s.dicIn.keys.Nodup) :
    ∃ s' : DConv τ, densIns t idx qs is s = .ok (O.map fun q => (s.dic.get? q).getD ⟨t, idx, q⟩, s') ∧
      s'.dicOut = s'.dic ∧ s'.dic.keys.Nodup ∧ s'.dicIn.keys.Nodup ∧ s'.tn = s.tn ∧
      (∀ q, s'.dic.get? q = if q ∈ O then none else s.dic.get? q) ∧
      ∀ q, s'.dicIn.get? q = if q ∈ O ∧ s.dic.get? q = none then some ⟨t, idx, q⟩ else s.dicIn.get? q := by
  induction h generalizing s with
  | nil => exact ⟨s, rfl, hd, hn, hni, rfl, by simp, by simp⟩
  | @cons i q is O hi _ ih =>
    obtain ⟨hq, hO'⟩ := List.nodup_cons.1 hO
    rw [densIns, hi]
    dsimp only
    cases hg : s.dic.get? q with
    | none =>
      obtain ⟨s', h1, h2, h3, h4, h5, h7, h8⟩ := ih hO' { s with dicIn := s.dicIn.set q ⟨t, idx, q⟩ } hd hn
        (Dict.nodup_keys_set hni _ _)
      refine ⟨s', ?_, h2, h3, h4, h5, fun x => ?_, fun x => ?_⟩
      · dsimp only
        rw [h1]
        simp [hg]
      · rw [h7 x]
        by_cases hx : x = q
        · subst hx; simp [hg]
        · simp [hx]
      · rw [h8 x, Dict.get?_set]
        dsimp only
        by_cases hx : x = q
        · subst hx; simp [hg, hq]
        · simp [hx, Ne.symm hx]
    | some e =>
      dsimp only
      rw [if_pos (by rw [hd, Dict.has_iff]; exact Dict.mem_keys_of_get? hg)]
      obtain ⟨s', h1, h2, h3, h4, h5, h7, h8⟩ := ih hO' { s with dic := s.dic.del q, dicOut := s.dicOut.del q }
        (by dsimp only; rw [hd]) (Dict.nodup_keys_del hn _) hni
      have hget : ∀ x ∈ O, (s.dic.del q).get? x = s.dic.get? x := fun x hx => by
        rw [Dict.get?_del, if_neg fun e : x = q => hq (e ▸ hx)]
      refine ⟨s', ?_, h2, h3, h4, h5, fun x => ?_, fun x => ?_⟩
      · rw [h1]
        dsimp only
        rw [List.map_cons, hg]
        congr 3
        exact List.map_congr_left fun x hx => by rw [hget x hx]
      · rw [h7 x]
        dsimp only
        rw [Dict.get?_del]
        by_cases hx : x = q
        · subst hx; simp
        · simp [hx]
      · rw [h8 x]
        dsimp only
        by_cases hx : x = q
        · subst hx; simp [hg, hq]
        · rw [Dict.get?_del, if_neg hx]
          simp [hx]

theorem densOuts_spec {t : Int} {idx : Nat} {qs : List Int} {is : List Nat} {O : List Int}
    (h : List.Forall₂ (fun i q => qs[i]? = some q) is O) (s : DConv τ) (hd : s.dicOut = s.dic) (hn : s.dic.keys.Nodup) :
    ∃ s' : DConv τ, densOuts t idx qs is s = .ok (O.map fun q => ⟨t + 1, idx, q⟩, s') ∧
      s'.dicOut = s'.dic ∧ s'.dic.keys.Nodup ∧ s'.dicIn = s.dicIn ∧ s'.tn = s.tn ∧
      ∀ q, s'.dic.get? q = if q ∈ O then some ⟨t + 1, idx, q⟩ else s.dic.get? q := by
  induction h generalizing s with
  | nil => exact ⟨s, rfl, hd, hn, rfl, rfl, by simp⟩
  | @cons i q is O hi _ ih =>
    rw [densOuts, hi]
    dsimp only
    obtain ⟨s', h1, h2, h3, h4, h5, h7⟩ := ih { s with dic := s.dic.set q ⟨t + 1, idx, q⟩, dicOut := s.dicOut.set q ⟨t + 1, idx, q⟩ }
      (by dsimp only; rw [hd]) (Dict.nodup_keys_set hn _ _)
    refine ⟨s', ?_, h2, h3, h4, h5, fun x => ?_⟩
    · rw [h1]; simp
    · rw [h7 x]
      dsimp only
      rw [Dict.get?_set]
      by_cases hx : x = q
      · subst hx; simp
      · simp [hx, Ne.symm hx]

/-! ### The network drawn so far -/

/-- The network `tn` stands for the factors `fs`. -/
structure DrawsD (val : τ → List Nat → R) (tn : TN τ) (fs : List (Factor Nm R)) : Prop where
  nodup : tn.edges.keys.Nodup
  names : tn.nodes.keys.Nodup
  recs : ∀ e r, tn.edges.get? e = some r → r = { dim := some 2 }
  legs : ∀ e, e ∈ tn.edges.keys ↔ ∃ f ∈ tn.factors val, e ∈ f.legs
  keys : ∀ e, e ∈ tn.edges.keys ↔ ∃ f ∈ fs, e ∈ f.legs
  prod : ∀ b, prodAt fs b = prodAt (tn.factors val) b
  noOpen : tn.openE = []

theorem DrawsD.nil (val : τ → List Nat → R) : DrawsD val ({} : TN τ) [] := by
  refine ⟨?_, ?_, ?_, ?_, ?_, ?_, ?_⟩ <;> simp [TN.factors, Dict.keys, Dict.get?, prodAt]

theorem DrawsD.place {val : τ → List Nat → R} {tn : TN τ} {fs : List (Factor Nm R)} (h : DrawsD val tn fs) {gate : Nm}
    (hg : gate ∉ tn.nodes.keys) {d : τ} {es : List Nm} (hs : HasShape.shape d = some (List.replicate es.length (some 2)))
    {f : Factor Nm R} (hf : ∀ e, e ∈ f.legs ↔ e ∈ es) (hat : ∀ b, f.at b = val d (es.map b)) :
    ∃ tn', tn.addNode (some gate) gate (some es) d false = (tn', .ok gate) ∧ DrawsD val tn' (f :: fs) ∧
      ∀ n, n ∈ tn'.nodes.keys → n = gate ∨ n ∈ tn.nodes.keys := by
  have hs' : HasShape.shape d = some ((es.map fun _ => 2).map some) := by
    rw [hs, List.map_map]
    congr 1
    exact List.map_const'.symm
  obtain ⟨tn', h1⟩ := TN.addNode_total (tn := tn) (n := gate) (i := gate) (es := es)
    (D := fun _ => 2) (isOpen := false) hg hs' (fun e _ er her => Or.inr (by rw [h.recs e er her]))
  obtain ⟨-, -, legs, fr, E'', h2, h3, h4, h5⟩ := TN.addNode_ok h1
  simp only [TN.newLegs, Option.some.injEq, Prod.mk.injEq] at h2
  obtain ⟨rfl, rfl⟩ := h2
  have hnodes : tn'.nodes = tn.nodes ++ [(gate, { legs := es, ten := some d, frozen := false })] := by
    rw [h3]; exact Dict.set_eq_append hg _
  have hfac : tn'.factors val = tn.factors val ++ [⟨es, val d⟩] := by
    unfold TN.factors
    rw [hnodes, List.map_append]; rfl
  have hedges : tn'.edges = E'' := by rw [h3]
  refine ⟨tn', h1, ⟨?_, ?_, ?_, ?_, ?_, ?_, ?_⟩, ?_⟩
  · rw [hedges]; exact h4.grow.nodup h.nodup
  · rw [hnodes, Dict.keys_append]
    exact List.nodup_append.2 ⟨h.names, by simp [Dict.keys], fun a ha b hb' e => by
      simp only [Dict.keys, List.map_cons, List.map_nil, List.mem_singleton] at hb'
      exact hg (hb' ▸ e ▸ ha)⟩
  · intro e r hr
    rw [hedges] at hr
    by_cases he : e ∈ tn.edges.keys
    · obtain ⟨r0, hr0⟩ := Dict.exists_get? he
      obtain ⟨r', hr', hfx, hdm⟩ := h4.grow.ent e r0 hr0
      rw [hr] at hr'
      cases hr'
      have h6 := h.recs e r0 hr0
      subst h6
      have := hdm 2 rfl
      cases r
      simp only at hfx this
      rw [hfx, this]
    · have hm : e ∈ es := ((h4.keys e).1 (Dict.mem_keys_of_get? hr)).resolve_left he
      obtain ⟨i, hi⟩ := List.mem_iff_getElem?.1 hm
      have hil : i < es.length := (List.getElem?_eq_some_iff.1 hi).1
      obtain ⟨r', hr', hdm⟩ := (h5 _ hs).2 i e 2 hi (by rw [List.getElem?_replicate, if_pos hil])
      rw [hr] at hr'
      cases hr'
      have := h4.nofix e r he hr
      cases r
      simp only at hdm this
      rw [hdm, this]
  · intro e
    rw [hedges, h4.keys e, h.legs e, hfac]
    simp [or_and_right, exists_or]
  · intro e
    rw [hedges, h4.keys e, h.keys e]
    simp only [List.mem_cons, exists_eq_or_imp, hf e]
    exact or_comm
  · intro b
    rw [prodAt_cons, h.prod b, hfac, prodAt_append, mul_comm, hat b]
    simp [prodAt, Factor.at]
  · rw [h3]; simp [h.noOpen]
  · intro n hn
    rw [hnodes, Dict.keys_append] at hn
    simp only [Dict.keys, List.map_cons, List.map_nil, List.mem_append, List.mem_singleton] at hn
    exact hn.symm

/-! ### The concrete state -/

/-- The tag of a copy. -/
def tagOf (k : Int) : String := if k % 2 = 0 then "p" else "d"

/-- The doubled qubit in the name of an edge. -/
def dualQubit : Nm → Int
  | .cons _ (.cons _ (.cons (.int q) (.cons (.str tag) .nil))) => if tag = "p" then 2 * q else 2 * q + 1
  | _ => 0

/-- The time in the name of an edge, backwards. -/
def dualTime : Nm → Int
  | .cons (.int t) _ => 1 - t
  | _ => 0

theorem dualQubit_edge (t : Int) (i : Nat) (k : Int) : dualQubit (Wire.edge ⟨t, i, k / 2⟩ (tagOf k)) = k := by
  unfold tagOf Wire.edge dualQubit
  by_cases h : k % 2 = 0
  · rw [if_pos h]; simp; omega
  · rw [if_neg h]; simp; omega

theorem names_dual (t : Int) (idx : Nat) : Names dualQubit dualTime (-t) (fun k => Wire.edge ⟨t + 1, idx, k / 2⟩ (tagOf k))
    fun k => Wire.edge ⟨t, idx, k / 2⟩ (tagOf k) :=
  ⟨fun k => dualQubit_edge _ _ k, fun k => dualQubit_edge _ _ k, fun _ => by simp [dualTime, Wire.edge],
    fun _ => by simp [dualTime, Wire.edge]; omega⟩

/-- The wires of a dictionary, as edges of doubled qubits. -/
def edgeAt (d : Dict Int Wire) (k : Int) : Option Nm := (d.get? (k / 2)).map (·.edge (tagOf k))

/-- The local variables represent the abstract state. -/
structure RelD (val : τ → List Nat → R) (s : DConv τ) (F : Front Nm R) : Prop where
  draws : DrawsD val s.tn F.fs
  dout : s.dicOut = s.dic
  dic_nodup : s.dic.keys.Nodup
  din_nodup : s.dicIn.keys.Nodup
  dic : ∀ k, edgeAt s.dic k = if k ∈ F.live then some (F.dic k) else none
  din : ∀ k, edgeAt s.dicIn k = if k ∈ F.ends then some (F.dout k) else none

variable {I : DensIface α τ} {val : τ → List Nat → R} {D : α → List Nat → R}

/-- What is needed of an operation in a circuit: a tensor with two values for every index. -/
def DensOk (I : DensIface α τ) (val : τ → List Nat → R) (D : α → List Nat → R) (r : OpRec α) : Prop :=
  ∃ s, I.shape r.op = .ok s ∧ s.length = r.qubits.length ∧ r.qubits.Nodup ∧ ∃ d, I.dens r.op = .ok d ∧
    HasShape.shape d = some (List.replicate (2 * ((outQubits s r.qubits).length + (inQubits s r.qubits).length)) (some 2)) ∧
    D r.op = val d

theorem DensOk.fit {r : OpRec α} (h : DensOk I val D r) : FitRec I.shape r := by
  obtain ⟨s, h1, h2, h3, -⟩ := h
  exact ⟨s, h1, h2, h3⟩

/-- The abstract state after one more operation. -/
def stepDual (sh : ShapeFn α) (D : α → List Nat → R) (F : Front Nm R) (idx : Nat) (r : OpRec α) : Front Nm R :=
  F.step (actOf (dualShape sh) (dualTen sh D) (dualRec r)) (fun k => Wire.edge ⟨r.time + 1, idx, k / 2⟩ (tagOf k))
    fun k => Wire.edge ⟨r.time, idx, k / 2⟩ (tagOf k)

theorem map_twice (l : List Int) (g : Int → Nm) (w : Int → Wire) (hp : ∀ q ∈ l, g (2 * q) = (w q).edge "p")
    (hd : ∀ q ∈ l, g (2 * q + 1) = (w q).edge "d") :
    (twice l).map g = (l.map w).map (·.edge "p") ++ (l.map w).map (·.edge "d") := by
  unfold twice
  rw [List.map_append, List.map_map, List.map_map, List.map_map, List.map_map]
  congr 1
  · exact List.map_congr_left fun q hq => hp q hq
  · exact List.map_congr_left fun q hq => hd q hq

theorem RelD.step {s : DConv τ} {F : Front Nm R} {n : Nm} {r : OpRec α} {idx : Nat} (h : RelD val s F)
    (hc : DensOk I val D r) (hg : n ∉ s.tn.nodes.keys) :
    ∃ s', densGate I r.time idx n r s = .ok s' ∧ RelD val s' (stepDual I.shape D F idx r) ∧
      ∀ m ∈ s'.tn.nodes.keys, m = n ∨ m ∈ s.tn.nodes.keys := by
  have hfit := hc.fit
  obtain ⟨l, hl, hlen, hn, d, hd, hsh, hval⟩ := hc
  have hsd : shapeD I.shape r.op = l := by simp [shapeD, hl]
  have hO : ((r.qubits.zip l).filter fun p => Letter.endsOut p.2).map Prod.fst = outQubits l r.qubits :=
    filter_ports hlen hn _ (fun w => w.getLast? = some .out) fun w => by
      rw [Bool.eq_iff_iff, endsOut_iff, decide_eq_true_eq]
  have hI : ((r.qubits.zip l).filter fun p => Letter.startsIn p.2).map Prod.fst = inQubits l r.qubits :=
    filter_ports hlen hn _ (fun w => w.head? = some .inp) fun w => by
      rw [Bool.eq_iff_iff, startsIn_iff, decide_eq_true_eq]
  have hgetO := indicesWith_get hlen Letter.endsOut
  have hgetI := indicesWith_get hlen Letter.startsIn
  rw [hO] at hgetO
  rw [hI] at hgetI
  have hins : (actOf (dualShape I.shape) (dualTen I.shape D) (dualRec r)).ins = twice (outQubits l r.qubits) := by
    rw [dual_ins hfit, ← hsd]; rfl
  have houts : (actOf (dualShape I.shape) (dualTen I.shape D) (dualRec r)).outs = twice (inQubits l r.qubits) := by
    rw [dual_outs hfit, ← hsd]; rfl
  obtain ⟨s1, a1, a2, a3, a4, a5, a7, a8⟩ := densIns_spec (t := r.time) (idx := idx) hgetI (inQubits_nodup hn) s h.dout
    h.dic_nodup h.din_nodup
  obtain ⟨s2, b1, b2, b3, b4, b5, b7⟩ := densOuts_spec (t := r.time) (idx := idx) hgetO s1 a2 a3
  -- the edges
  have hlive : ∀ k, k ∈ F.live ↔ ∃ w, s.dic.get? (k / 2) = some w := fun k => by
    have := h.dic k
    unfold edgeAt at this
    by_cases hk : k ∈ F.live
    · rw [if_pos hk] at this
      simp only [hk, true_iff]
      obtain ⟨w, hw, -⟩ := Option.map_eq_some_iff.1 this
      exact ⟨w, hw⟩
    · rw [if_neg hk, Option.map_eq_none_iff] at this
      simp [hk, this]
  have hout : ∀ k, F.outEdge (fun k => Wire.edge ⟨r.time, idx, k / 2⟩ (tagOf k)) k =
      ((s.dic.get? (k / 2)).getD ⟨r.time, idx, k / 2⟩).edge (tagOf k) := fun k => by
    unfold Front.outEdge
    have := h.dic k
    unfold edgeAt at this
    by_cases hk : k ∈ F.live
    · rw [if_pos hk] at this ⊢
      obtain ⟨w, hw, hw'⟩ := Option.map_eq_some_iff.1 this
      rw [hw, ← hw']; rfl
    · rw [if_neg hk] at this ⊢
      rw [Option.map_eq_none_iff] at this
      rw [this]; rfl
  have e2 : ∀ q : Int, 2 * q / 2 = q := fun q => by omega
  have e3 : ∀ q : Int, (2 * q + 1) / 2 = q := fun q => by omega
  have t2 : ∀ q : Int, tagOf (2 * q) = "p" := fun q => if_pos (by omega)
  have t3 : ∀ q : Int, tagOf (2 * q + 1) = "d" := fun q => if_neg (by omega)
  generalize hinW : (inQubits l r.qubits).map (fun q => (s.dic.get? q).getD ⟨r.time, idx, q⟩) = inW at a1
  generalize houtW : (outQubits l r.qubits).map (fun q => (⟨r.time + 1, idx, q⟩ : Wire)) = outW at b1
  have hL1 : (twice (inQubits l r.qubits)).map (F.outEdge fun k => Wire.edge ⟨r.time, idx, k / 2⟩ (tagOf k)) =
      inW.map (·.edge "p") ++ inW.map (·.edge "d") := by
    rw [← hinW]
    exact map_twice _ _ _ (fun q _ => by rw [hout, e2, t2]) fun q _ => by rw [hout, e3, t3]
  have hL2 : (twice (outQubits l r.qubits)).map (fun k => Wire.edge ⟨r.time + 1, idx, k / 2⟩ (tagOf k)) =
      outW.map (·.edge "p") ++ outW.map (·.edge "d") := by
    rw [← houtW]
    exact map_twice _ _ _ (fun q _ => by rw [e2, t2]) fun q _ => by rw [e3, t3]
  have hlI : inW.length = (actOf I.shape D r).ins.length := by
    rw [← hinW, List.length_map, ← hsd]; rfl
  have hlO : outW.length = (actOf I.shape D r).outs.length := by
    rw [← houtW, List.length_map, ← hsd]; rfl
  obtain ⟨tn', d1, d2, d4⟩ := h.draws.place (gate := n) hg (d := d) (es := densLegs outW inW) (by
      rw [hsh]
      unfold densLegs
      simp only [List.length_append, List.length_map, ← hinW, ← houtW]
      congr 2
      omega)
    (f := ⟨(inW.map (·.edge "p") ++ inW.map (·.edge "d")) ++ (outW.map (·.edge "p") ++ outW.map (·.edge "d")),
      dualTen I.shape D r.op⟩)
    (fun e => by unfold densLegs; simp only [List.mem_append]; tauto)
    (fun b => by
      unfold Factor.at densLegs
      dsimp only
      simp only [List.map_append]
      rw [dualTen_append hfit (by simp [hlO]) (by simp [hlO]) (by simp [hlI]) (by simp [hlI]), hval])
  refine ⟨{ s2 with tn := tn' }, ?_, ⟨?_, b2, b3, ?_, ?_, ?_⟩, d4⟩
  · unfold densGate
    rw [hl]
    dsimp only
    rw [a1]
    dsimp only
    rw [b1]
    dsimp only
    rw [hd]
    dsimp only
    rw [b5, a5, d1]
  · have : (stepDual I.shape D F idx r).fs =
        ⟨(inW.map (·.edge "p") ++ inW.map (·.edge "d")) ++ (outW.map (·.edge "p") ++ outW.map (·.edge "d")),
          dualTen I.shape D r.op⟩ :: F.fs := by
      unfold stepDual Front.step
      dsimp only
      rw [hins, houts, hL1, hL2]
      rfl
    rw [this]
    exact d2
  · show s2.dicIn.keys.Nodup
    rw [b4]; exact a4
  · intro k
    show (s2.dic.get? (k / 2)).map _ = _
    rw [b7, a7]
    have hm : k ∈ (stepDual I.shape D F idx r).live ↔
        (k ∈ F.live ∧ k / 2 ∉ inQubits l r.qubits) ∨ k / 2 ∈ outQubits l r.qubits := by
      unfold stepDual Front.step
      dsimp only
      rw [hins, houts, List.mem_append, List.mem_filter, decide_eq_true_eq, mem_twice, mem_twice]
    have hd' : (stepDual I.shape D F idx r).dic k =
        if k / 2 ∈ outQubits l r.qubits then Wire.edge ⟨r.time + 1, idx, k / 2⟩ (tagOf k) else F.dic k := by
      unfold stepDual Front.step
      dsimp only
      rw [hins]
      exact if_congr mem_twice rfl rfl
    rw [hd']
    by_cases h1 : k / 2 ∈ outQubits l r.qubits
    · rw [if_pos h1, if_pos (hm.2 (Or.inr h1)), if_pos h1]; rfl
    · rw [if_neg h1, if_neg h1]
      by_cases h2 : k / 2 ∈ inQubits l r.qubits
      · rw [if_pos h2, if_neg]
        · rfl
        · rw [hm]; tauto
      · rw [if_neg h2]
        have := h.dic k
        unfold edgeAt at this
        rw [this]
        exact if_congr (by rw [hm]; tauto) rfl rfl
  · intro k
    show (s2.dicIn.get? (k / 2)).map _ = _
    rw [b4, a8]
    have hm : k ∈ (stepDual I.shape D F idx r).ends ↔ (k / 2 ∈ inQubits l r.qubits ∧ k ∉ F.live) ∨ k ∈ F.ends := by
      unfold stepDual Front.step
      dsimp only
      rw [houts, List.mem_append, List.mem_filter, mem_twice]
      simp only [decide_eq_true_eq]
    have hd' : (stepDual I.shape D F idx r).dout k =
        if k / 2 ∈ inQubits l r.qubits ∧ k ∉ F.live then Wire.edge ⟨r.time, idx, k / 2⟩ (tagOf k) else F.dout k := by
      unfold stepDual Front.step
      dsimp only
      rw [houts]
      exact if_congr (and_congr_left' mem_twice) rfl rfl
    have hnone : s.dic.get? (k / 2) = none ↔ k ∉ F.live := by
      rw [hlive]
      cases s.dic.get? (k / 2) <;> simp
    rw [hd']
    by_cases h1 : k / 2 ∈ inQubits l r.qubits ∧ k ∉ F.live
    · rw [if_pos ⟨h1.1, hnone.2 h1.2⟩, if_pos h1, if_pos (hm.2 (Or.inl h1))]; rfl
    · rw [if_neg fun hc => h1 ⟨hc.1, hnone.1 hc.2⟩, if_neg h1]
      have := h.din k
      unfold edgeAt at this
      rw [this]
      exact if_congr (by rw [hm]; tauto) rfl rfl

/-- The loop over the gates. -/
theorem densLoop_spec (gs : List (Int × Nat × Nm × OpRec α)) : ∀ (S : Circ α) (s : DConv τ) (F : Front Nm R),
    RelD val s F → F.OK dualQubit → HistOf dualQubit dualTime (dualShape I.shape) F S →
    F.Computes dualQubit (fun q => (wireWord (dualShape I.shape) q S).head? = some .out)
      (S.map fun p => actOf (dualShape I.shape) (dualTen I.shape D) p.2) →
    Wired (dualShape I.shape) ((gs.map fun g => dualEntry g.2.2).reverse ++ S) →
    (∀ g ∈ gs, g.1 = g.2.2.2.time ∧ DensOk I val D g.2.2.2) →
    (gs.map fun g => g.2.2.1).Nodup → (∀ g ∈ gs, g.2.2.1 ∉ s.tn.nodes.keys) →
    ∃ s' F', densLoop I gs s = .ok s' ∧ RelD val s' F' ∧ F'.OK dualQubit ∧
      HistOf dualQubit dualTime (dualShape I.shape) F' ((gs.map fun g => dualEntry g.2.2).reverse ++ S) ∧
      F'.Computes dualQubit
        (fun q => (wireWord (dualShape I.shape) q ((gs.map fun g => dualEntry g.2.2).reverse ++ S)).head? = some .out)
        (((gs.map fun g => dualEntry g.2.2).reverse ++ S).map fun p => actOf (dualShape I.shape) (dualTen I.shape D) p.2) := by
  induction gs with
  | nil => exact fun S s F h1 h2 h3 h4 _ _ _ _ => ⟨s, F, rfl, h1, h2, h3, h4⟩
  | cons g gs ih =>
    intro S s F h1 h2 h3 h4 h5 h6 h7 h8
    obtain ⟨t, idx, n, r⟩ := g
    obtain ⟨ht, hc⟩ := h6 (t, idx, n, r) (by simp)
    dsimp only at ht hc
    subst ht
    simp only [List.map_cons, List.reverse_cons, List.append_assoc, List.singleton_append] at h5 ⊢
    have hw : Wired (dualShape I.shape) ((n, dualRec r) :: S) := h5.suffix
    obtain ⟨s1, k1, k2, k3⟩ := h1.step (idx := idx) hc (h8 (r.time, idx, n, r) (by simp))
    have hn : (dualRec r).qubits.Nodup := twice_nodup hc.fit.nodup
    have hfit := h3.fits (ten := dualTen I.shape D) (names_dual r.time idx) hw hn
    obtain ⟨h7a, h7b⟩ := List.nodup_cons.1 h7
    obtain ⟨s', F', m1, m2⟩ := ih ((n, dualRec r) :: S) s1 (stepDual I.shape D F idx r) k2 (h2.step hfit)
      (h3.step (names_dual r.time idx) hw hn)
      (Computes_step h3 (names_dual r.time idx) h2 hw hn h4) h5 (fun g hg => h6 g (by simp [hg])) h7b (fun g hg hm => by
        rcases k3 _ hm with e | hm
        · exact h7a (List.mem_map.2 ⟨g, hg, e⟩)
        · exact h8 g (by simp [hg]) hm)
    refine ⟨s', F', ?_, m2⟩
    rw [densLoop, k1]
    exact m1

end Circ

end Verif
