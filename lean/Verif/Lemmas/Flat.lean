import Verif.Lemmas.ConvertNet
import Verif.Lemmas.DensPure
import Verif.Props.Controlled
/-!
# Helper lemmas: the tensors of operations can be flattened
-/

set_option linter.unusedSectionVars false

namespace Verif

/-- Names that do not get mixed up with each other or with the names of wires when they are used as prefixes. -/
structure TidyNames (ns : List Nm) : Prop where
  inj : ∀ n ∈ ns, ∀ n' ∈ ns, n.tup = n'.tup → n = n'
  ne : ∀ n ∈ ns, n.tup ≠ []
  under : ∀ n ∈ ns, ∀ n' ∈ ns, ¬ n.Under n'
  wire : ∀ n ∈ ns, ∀ t i q, ¬ n.Under (Circ.wireName t i q)

theorem tup_wire (t : Int) (i : Nat) (q : Int) : (Circ.wireName t i q).tup = [.int t, .int i, .int q] := rfl

/-- The tuple of the qubits in an automatic name. -/
theorem tup_auto (t : Int) (qs : List Int) : ∃ x, (Circ.autoName t qs).tup = [.int t, x] ∧ ∀ i, x ≠ .int i := by
  refine ⟨_, rfl, fun i => ?_⟩
  cases qs <;> simp

/-- Strings, and the automatic names `(time, qubits)`, do not get mixed up. -/
theorem tidyNames_of {ns : List Nm} (h : ∀ n ∈ ns, (∃ s, n = .str s) ∨ ∃ t qs, n = Circ.autoName t qs) : TidyNames ns := by
  have under : ∀ n ∈ ns, ∀ n' ∈ ns, ¬ n.Under n' := by
    rintro n hn n' hn' ⟨y, hy, e⟩
    have hy' : 0 < y.length := List.length_pos_iff.2 hy
    rcases h n hn with ⟨s, rfl⟩ | ⟨t, qs, rfl⟩ <;> rcases h n' hn' with ⟨s', rfl⟩ | ⟨t', qs', rfl⟩
    · have := congrArg List.length e
      simp [Nm.tup] at this
      exact hy this
    · obtain ⟨x, hx, -⟩ := tup_auto t' qs'
      rw [hx] at e
      simp [Nm.tup] at e
    · obtain ⟨x, hx, -⟩ := tup_auto t qs
      rw [hx] at e
      simp [Nm.tup] at e
    · obtain ⟨x, hx, -⟩ := tup_auto t qs
      obtain ⟨x', hx', -⟩ := tup_auto t' qs'
      rw [hx, hx'] at e
      have := congrArg List.length e
      simp at this
      exact hy this
  refine ⟨fun n hn n' hn' e => ?_, fun n hn => ?_, under, ?_⟩
  · rcases h n hn with ⟨s, rfl⟩ | ⟨t, qs, rfl⟩ <;> rcases h n' hn' with ⟨s', rfl⟩ | ⟨t', qs', rfl⟩
    · simpa [Nm.tup] using e
    · obtain ⟨x, hx, -⟩ := tup_auto t' qs'
      rw [hx] at e
      simp [Nm.tup] at e
    · obtain ⟨x, hx, -⟩ := tup_auto t qs
      rw [hx] at e
      simp [Nm.tup] at e
    · unfold Circ.autoName Nm.pair at e ⊢
      simp only [Nm.tup, List.cons.injEq, and_true] at e
      rw [e.1, e.2]
  · rcases h n hn with ⟨s, rfl⟩ | ⟨t, qs, rfl⟩
    · simp [Nm.tup]
    · obtain ⟨x, hx, -⟩ := tup_auto t qs
      rw [hx]; simp
  · rintro n hn t i q ⟨y, hy, e⟩
    rw [tup_wire] at e
    rcases h n hn with ⟨s, rfl⟩ | ⟨t, qs, rfl⟩
    · simp [Nm.tup] at e
    · obtain ⟨x, hx, hx'⟩ := tup_auto t qs
      rw [hx] at e
      simp at e
      exact hx' _ e.2.1.symm

namespace TVal

variable {R : Type}

/-- A value that can be flattened: no view, and if it is a network, an expandable one. -/
def Flat (k : Nat) (t : TVal R) : Prop := (∀ u, t ≠ .view u) ∧ ∀ tn, t = ofTN tn → Expandable k tn

theorem expandable_mono {k k' : Nat} (h : k ≤ k') {tn : TN (TVal R)} (he : Expandable k tn) : Expandable k' tn := by
  induction k' generalizing k tn with
  | zero => obtain rfl : k = 0 := by omega
            exact he
  | succ k' ih =>
    cases k with
    | zero => exact absurd he (by simp [Expandable])
    | succ k =>
      obtain ⟨h1, h2, h3, h4⟩ := he
      refine ⟨h1, h2, h3, fun n r hr => ?_⟩
      obtain ⟨t, k1, k2, k3⟩ := h4 n r hr
      exact ⟨t, k1, k2, fun s hs => ⟨ih (by omega) (k3 s hs).1, (k3 s hs).2⟩⟩

theorem Flat.mono {k k' : Nat} (h : k ≤ k') {t : TVal R} (he : Flat k t) : Flat k' t :=
  ⟨he.1, fun tn ht => expandable_mono h (he.2 tn ht)⟩

theorem flat_ten (k : Nat) (a : Option (Arr R)) : Flat k (.ten a) := ⟨by simp, fun tn h => by simp [ofTN] at h⟩

theorem flat_sum (k : Nat) (ts : List (Nm × TVal R)) : Flat k (.sum ts) := ⟨by simp, fun tn h => by simp [ofTN] at h⟩

theorem flat_ofTN [CommSemiring R] [StarRing R] {k : Nat} {tn : TN (TVal R)} (h : Expandable k tn) : Flat k (ofTN tn) :=
  ⟨by simp [ofTN], fun tn' e => ofTN_inj e ▸ h⟩

theorem edim_eq_two {tn : TN (TVal R)} {legs : List Nm} (h : ∀ e ∈ legs, ∃ r, tn.edges.get? e = some r ∧ r.dim = some 2) :
    legs.map tn.edim = List.replicate legs.length (some 2) := by
  rw [List.eq_replicate_iff]
  refine ⟨by simp, fun b hb => ?_⟩
  obtain ⟨e, he, rfl⟩ := List.mem_map.1 hb
  obtain ⟨r, hr, hd⟩ := h e he
  unfold TN.edim
  rw [hr]; exact hd

theorem tup_int_inj {l : List Nm} (h : ∀ n ∈ l, ∃ i : Nat, n = .int i) : ∀ n ∈ l, ∀ n' ∈ l, n.tup = n'.tup → n = n' := fun n hn n' hn' e => by
  obtain ⟨i, rfl⟩ := h n hn
  obtain ⟨i', rfl⟩ := h n' hn'
  simpa [Nm.tup] using e

variable [CommSemiring R]

/-- The network made of a circuit can be flattened. -/
theorem expandable_circuit {α : Type} {I : OpsIface α (TVal R)} {c : Circ α} {tn : TN (TVal R)} {k : Nat} (h : c.convertPure I = .ok tn)
    (hn : TidyNames (Dict.keys c)) (hc : ∀ p ∈ c, ∀ s t, I.shape p.2.op = .ok s → I.tensor p.2.op = .ok t →
      t.shape = some (List.replicate ((outPlaces s).length + (inPlaces s).length) (some 2)) ∧ Flat k t) : Expandable (k + 1) tn := by
  have hi := Circ.convertPure_net h
  have hkeys : ∀ n ∈ tn.nodes.keys, n ∈ Dict.keys c := fun n hn => by
    obtain ⟨r, hr⟩ := Dict.exists_get? hn
    obtain ⟨p, hp, rfl, -⟩ := hi.nodes n r hr
    exact List.mem_map.2 ⟨p, hp, rfl⟩
  refine ⟨hi.cons, fun e r hr => ⟨2, (hi.dims e r hr).1, (hi.dims e r hr).2⟩, ⟨?_, ?_, ?_, ?_, ?_, ?_⟩, fun n r hr => ?_⟩
  · exact fun n h n' h' => hn.inj n (hkeys n h) n' (hkeys n' h')
  · intro e he e' he' h
    obtain ⟨t, i, q, rfl⟩ := hi.wires e he
    obtain ⟨t', i', q', rfl⟩ := hi.wires e' he'
    rw [tup_wire, tup_wire] at h
    simp only [List.cons.injEq, Nm.int.injEq, Nat.cast_inj, and_true] at h
    rw [h.1, h.2.1, h.2.2]
  · exact fun n h => hn.ne n (hkeys n h)
  · intro e he
    obtain ⟨t, i, q, rfl⟩ := hi.wires e he
    rw [tup_wire]; simp
  · exact fun n r t hr _ _ n' h' => hn.under n (hkeys n (Dict.mem_keys_of_get? hr)) n' (hkeys n' h')
  · intro n r t hr _ _ e he
    obtain ⟨t, i, q, rfl⟩ := hi.wires e he
    exact hn.wire n (hkeys n (Dict.mem_keys_of_get? hr)) _ _ _
  · obtain ⟨p, hp, rfl, t, s, h1, h2, h3, h4⟩ := hi.nodes n r hr
    obtain ⟨h5, h6⟩ := hc p hp s t h3 h2
    refine ⟨t, h1, h6.1, fun s' hs' => ⟨h6.2 s' hs', ?_⟩⟩
    have hsh : (ofTN s').shape = s'.shape? := NetTensor.shape_ofNet s'
    rw [← hsh, ← hs', h5, edim_eq_two, h4]
    intro e he
    obtain ⟨r', hr'⟩ := Dict.exists_get? (hi.cons.legs_exist p.1 r hr e he)
    exact ⟨r', hr', (hi.dims e r' hr').1⟩

end TVal

namespace Oper

variable {R : Type} [CommSemiring R] [StarRing R]

open TVal

theorem flat_convertCtrl {data t : TVal R} {s : List (List Letter)} {k m : Nat} {d : List Nat} (hs : data.shape = some (d.map some))
    (ht : convertCtrl data s = .ok t) (hm : t.shape = some (List.replicate m (some 2))) (hf : Flat k data) : Flat (k + 1) t := by
  obtain ⟨tn, h1, h2, h3, -⟩ := oneNode (τ := TVal R) (o := false) (i := .str "TC") (t := data) hs
  have hcons : tn.Consistent := TN.Consistent.empty.addNode (by simp [Dict.keys]) h1
  unfold convertCtrl at ht
  rw [addNode_named, h1] at ht
  dsimp only at ht
  split at ht
  · cases ht
  · split at ht
    · cases ht
    · next outs _ _ ins _ =>
      cases ht
      refine flat_ofTN ?_
      have hopen : ∀ e ∈ (outs ++ ins).map (fun k : Nat => Nm.int k), e ∈ tn.edges.keys := by
        intro e he
        rw [show TVal.shape (TVal.ofTN { tn with openE := (outs ++ ins).map fun k : Nat => Nm.int k }) =
          TN.shape? { tn with openE := (outs ++ ins).map fun k : Nat => Nm.int k } from
            NetTensor.shape_ofNet (τ := TVal R) _] at hm
        unfold TN.shape? at hm
        dsimp only at hm
        by_contra hne
        have hnone : tn.edges.get? e = none := Dict.get?_eq_none.2 hne
        have : ∀ l : List Nm, e ∈ l → l.mapM (fun e => (tn.edges.get? e).map EdgeRec.dim) = none := fun l => by
          induction l with
          | nil => simp
          | cons x l ih =>
            intro hx
            rw [List.mapM_cons]
            rcases List.mem_cons.1 hx with rfl | hx
            · rw [hnone]; rfl
            · cases tn.edges.get? x with
              | none => rfl
              | some r => rw [ih hx]; rfl
        rw [this _ he] at hm
        cases hm
      have hints : ∀ e ∈ tn.edges.keys, ∃ i : Nat, e = .int i := fun e he => by
        have := (h2.1 e).1 he
        rw [mem_rangeLegs] at this
        obtain ⟨i, -, rfl⟩ := this
        exact ⟨i, rfl⟩
      have hkey : ∀ n ∈ Dict.keys tn.nodes, n = .str "TC" := fun n hn => by
        rw [h3] at hn; simpa [Dict.keys] using hn
      refine ⟨⟨hcons.nodes_nodup, hcons.edges_nodup, hcons.legs_exist, hopen, hcons.adj_iff, hcons.adj_nodup⟩, fun e r hr => ?_,
        ⟨?_, tup_int_inj hints, ?_, ?_, ?_, ?_⟩, fun n r hr => ?_⟩
      · obtain ⟨i, rfl⟩ := hints e (Dict.mem_keys_of_get? hr)
        have := (h2.1 _).1 (Dict.mem_keys_of_get? hr)
        rw [mem_rangeLegs] at this
        obtain ⟨j, hj, e⟩ := this
        have hij : i = j := by simpa using e
        subst hij
        have := h2.2 i _ (List.getElem?_eq_getElem hj)
        have hr' : some r = _ := hr.symm.trans this
        cases hr'
        exact ⟨_, rfl, fun f hf => by cases hf⟩
      · intro n hn n' hn' _
        rw [hkey n hn, hkey n' hn']
      · intro n hn
        rw [hkey n hn]; simp [Nm.tup]
      · intro e he
        obtain ⟨i, rfl⟩ := hints e he
        simp [Nm.tup]
      · rintro n r t hr - - n' hn' ⟨y, hy, e⟩
        rw [hkey n (Dict.mem_keys_of_get? hr), hkey n' hn'] at e
        have := congrArg List.length e
        simp [Nm.tup] at this
        exact hy this
      · rintro n r t hr - - n' hn' ⟨y, hy, e⟩
        obtain ⟨i, rfl⟩ := hints n' hn'
        rw [hkey n (Dict.mem_keys_of_get? hr)] at e
        simp [Nm.tup] at e
      · have hmem := Dict.mem_of_get? hr
        change (n, r) ∈ tn.nodes at hmem
        rw [h3, List.mem_singleton] at hmem
        cases hmem
        refine ⟨data, rfl, hf.1, fun s' hs' => ⟨hf.2 s' hs', ?_⟩⟩
        have hsh : (ofTN s').shape = s'.shape? := NetTensor.shape_ofNet s'
        rw [← hsh, ← hs', hs]
        congr 1
        refine List.ext_getElem (by simp [rangeLegs]) fun j hj _ => ?_
        have hj' : j < d.length := by simpa using hj
        have := h2.2 j _ (List.getElem?_eq_getElem hj')
        simp [rangeLegs, TN.edim, this]

variable {ctr : TVal R → Except Err (Arr R)}

/-- `Controlled` of an operation is a `ControlledOperation` with an array, or the `ControlledCircuit` of a circuit. -/
theorem controlled_cases {I : OpsIface (Oper R) (TVal R)} {op op' : Oper R} {cond : Bool} (h : controlled ctr I op cond = .ok op') :
    (∃ a s, op' = .ctrl (.ten (some a)) s false none) ∨ ∃ c s, op = .circ c ∧ op' = .cctrl c s cond := by
  unfold controlled at h
  split at h
  · cases h
  · cases h
  · split at h
    · cases h
    · split at h
      · cases h
      · split at h
        · cases h; exact Or.inr ⟨_, _, rfl, rfl⟩
        · split at h
          · cases h
          · split at h
            · cases h
            · split at h
              · cases h
              · split at h
                · cases h
                · split at h
                  · cases h
                  · unfold newCtrl at h
                    split at h
                    · cases h; exact Or.inl ⟨_, _, rfl⟩
                    · cases h

theorem flat_ctrl {k n : Nat} {data t : TVal R} {s : List (List Letter)} {sa : Bool} {ov : Option (TVal R)} {d : List Nat} {m : Nat}
    (ht : (iface ctr (n + 1)).tensor (.ctrl data s sa ov) = .ok t) (hs : data.shape = some (d.map some))
    (hm : t.shape = some (List.replicate m (some 2))) (hf : Flat k data) : Flat (k + 1) t :=
  flat_convertCtrl hs ht hm hf

/-- The circuit that implements a controlled circuit is made of controlled operations under automatic names. -/
theorem cctrlLoop_ops {I : OpsIface (Oper R) (TVal R)} {cond : Bool} {qs : List Int} : ∀ {l : List (Nm × OpRec (Oper R))} {c c' : Circ (Oper R)},
    cctrlLoop ctr I cond qs l c = .ok c' → ∀ p' ∈ c', p' ∈ c ∨ ((∃ t qs, p'.1 = Circ.autoName t qs) ∧
      ∃ p ∈ l, controlled ctr I p.2.op cond = .ok p'.2.op)
  | [], c, c', h, p', hp' => by rw [cctrlLoop] at h; cases h; exact Or.inl hp'
  | (n, r) :: l, c, c', h, p', hp' => by
    rw [cctrlLoop] at h
    split at h
    · cases h
    · next op' hop =>
      split at h
      · cases h
      · next c1 hc1 =>
        rcases cctrlLoop_ops h p' hp' with h1 | ⟨h1, p, hp, h2⟩
        · unfold Circ.append at hc1
          dsimp only at hc1
          split at hc1
          · cases hc1
          · split at hc1
            · cases hc1
            · split at hc1
              · cases hc1
              · cases hc1
                rcases Circ.mem_dict_set h1 with h1 | h1
                · subst h1
                  exact Or.inr ⟨⟨_, _, rfl⟩, (n, r), by simp, hop⟩
                · exact Or.inl h1
        · exact Or.inr ⟨h1, p, by simp [hp], h2⟩

/-- The tensor of a controlled circuit or operation can be flattened. -/
theorem flat_controlled (hctr : Evaluates ctr) : ∀ (n : Nat) {op op' : Oper R} {cond : Bool} {t : TVal R}, Built ctr n true op →
    controlled ctr (iface ctr n) op cond = .ok op' → (iface ctr n).tensor op' = .ok t → Flat n t
  | 0, op, _, _, _, h, _, _ => by cases op <;> exact absurd h (by simp [Built])
  | n + 1, op, op', cond, t, h, hop, ht => by
    obtain ⟨s, -, -, hc⟩ := means_built hctr (n + 1) true op h
    obtain ⟨-, -, op2, t2, e1, e2⟩ := hc rfl cond
    rw [hop] at e1; cases e1
    have e3 := e2.tensor
    rw [ht] at e3; cases e3
    rcases controlled_cases hop with ⟨a, s', rfl⟩ | ⟨c, s', rfl, rfl⟩
    · exact (flat_ctrl (k := 0) ht (d := a.shape) (by rw [TVal.shape]) e2.dims (flat_ten _ _)).mono (by omega)
    · rw [Built] at h
      change tensorOf ctr (iface ctr n) (.cctrl c s' cond) = .ok t at ht
      unfold tensorOf at ht
      dsimp only at ht
      split at ht
      · cases ht
      · next c' hc' =>
        have ops := cctrlLoop_ops hc'
        cases hcv : Circ.convertPure (iface ctr n) c' with
        | error e => rw [hcv] at ht; cases ht
        | ok tn =>
          rw [hcv] at ht
          cases ht
          refine flat_ofTN (expandable_circuit hcv (tidyNames_of fun m hm => ?_) fun p' hp' s2 t2 hs2 ht2 => ?_)
          · obtain ⟨p', hp', rfl⟩ := List.mem_map.1 hm
            rcases ops p' hp' with h | h
            · simp at h
            · exact Or.inr h.1
          · rcases ops p' hp' with h' | ⟨-, p, hp, h2⟩
            · simp at h'
            · obtain ⟨j1, -, -, -, -⟩ := h.2.2.1 p hp
              obtain ⟨s3, -, -, hc3⟩ := means_built hctr n true p.2.op j1
              obtain ⟨-, -, op3, t3, f1, f2⟩ := hc3 rfl cond
              rw [h2] at f1; cases f1
              have f3 := f2.tensor
              rw [ht2] at f3; cases f3
              have f4 := f2.shape
              rw [hs2] at f4; cases f4
              exact ⟨f2.dims, flat_controlled hctr n j1 h2 ht2⟩

/-- The tensor of a controlled circuit can be flattened. -/
theorem flat_cctrl (hctr : Evaluates ctr) {n : Nat} {b : Bool} {c : List (Nm × OpRec (Oper R))} {s : List (List Letter)} {cond : Bool} {t : TVal R}
    (h : Built ctr n b (.cctrl c s cond)) (ht : (iface ctr n).tensor (.cctrl c s cond) = .ok t) : Flat n t := by
  match n, h with
  | 0, h => exact absurd h (by simp [Built])
  | n + 1, h =>
    rw [Built] at h
    obtain ⟨rfl, ⟨s0, h2, rfl⟩, h3, h5, h6⟩ := h
    have ht' : tensorOf ctr (iface ctr n) (.cctrl c ([.c] :: s0) cond) = .ok t := ht
    unfold tensorOf at ht'
    dsimp only at ht'
    split at ht'
    · cases ht'
    · next c' hc' =>
      have ops := cctrlLoop_ops hc'
      cases hcv : Circ.convertPure (iface ctr n) c' with
      | error e => rw [hcv] at ht'; cases ht'
      | ok tn =>
        rw [hcv] at ht'
        cases ht'
        refine flat_ofTN (expandable_circuit hcv (tidyNames_of fun m hm => ?_) fun p' hp' s2 t2 hs2 ht2 => ?_)
        · obtain ⟨p', hp', rfl⟩ := List.mem_map.1 hm
          rcases ops p' hp' with h | h
          · simp at h
          · exact Or.inr h.1
        · rcases ops p' hp' with h' | ⟨-, p, hp, h2⟩
          · simp at h'
          · obtain ⟨j1, -, -, -, -⟩ := h3 p hp
            obtain ⟨s3, -, -, hc3⟩ := means_built hctr n true p.2.op j1
            obtain ⟨-, -, op3, t3, f1, f2⟩ := hc3 rfl cond
            rw [h2] at f1; cases f1
            have f3 := f2.tensor
            rw [ht2] at f3; cases f3
            have f4 := f2.shape
            rw [hs2] at f4; cases f4
            exact ⟨f2.dims, flat_controlled hctr n j1 h2 ht2⟩

/-- The data of the gates in an operation can be flattened to depth `k`, and the names in circuits are tidy. -/
def Tidy (k : Nat) : Nat → Oper R → Prop
  | 0, _ => True
  | _ + 1, .imm _ _ => True
  | _ + 1, .pure p _ => Flat k p.data
  | _ + 1, .ctrl data _ _ _ => Flat k data
  | n + 1, .circ c => TidyNames (Dict.keys c) ∧ ∀ p ∈ c, Tidy k n p.2.op
  | _ + 1, .cctrl _ _ _ => True
  | _ + 1, .sup _ _ => True

/-- The tensor of an operation with tidy names can be flattened. -/
theorem flat_tensor (hctr : Evaluates ctr) {k : Nat} : ∀ (n : Nat) {b : Bool} {op : Oper R} {t : TVal R}, Built ctr n b op →
    Tidy k n op → (iface ctr n).tensor op = .ok t → Flat (n + k) t
  | 0, _, op, _, h, _, _ => by cases op <;> exact absurd h (by simp [Built])
  | n + 1, _, .imm _ _, _, h, _, _ => absurd h (by simp [Built])
  | n + 1, _, .pure p q, t, _, hk, ht => by
    rw [Tidy] at hk
    cases ht
    exact hk.mono (by omega)
  | n + 1, b, .ctrl data s sa ov, t, h, hk, ht => by
    rw [Tidy] at hk
    obtain ⟨s', t', hm, -⟩ := means_built hctr _ _ _ h
    have := hm.tensor
    rw [ht] at this; cases this
    rw [Built] at h
    have hd := h.1.dims
    rw [replicate_some] at hd
    exact (flat_ctrl ht hd hm.dims hk).mono (by omega)
  | n + 1, b, .circ c, t, h, hk, ht => by
    rw [Tidy] at hk
    rw [Built] at h
    cases hcv : Circ.convertPure (iface ctr n) c with
    | error e =>
      change (Circ.convertPure (iface ctr n) c).map _ = _ at ht
      rw [hcv] at ht; cases ht
    | ok tn =>
      change (Circ.convertPure (iface ctr n) c).map _ = _ at ht
      rw [hcv] at ht; cases ht
      refine (flat_ofTN (expandable_circuit (k := n + k) hcv hk.1 fun p hp s t hs ht => ?_)).mono (by omega)
      obtain ⟨j1, -⟩ := h.2.2.1 p hp
      obtain ⟨s', t', hm, -⟩ := means_built hctr _ _ _ j1
      have f1 := hm.tensor
      have f2 := hm.shape
      rw [ht] at f1; cases f1
      rw [hs] at f2; cases f2
      exact ⟨hm.dims, flat_tensor hctr n j1 (hk.2 p hp) ht⟩
  | n + 1, b, .cctrl c s cond, t, h, _, ht => (flat_cctrl hctr h ht).mono (by omega)
  | n + 1, b, .sup terms s, t, _, _, ht => by
    change (supLoop (iface ctr n) terms 0 {}).map _ = _ at ht
    cases hs : supLoop (iface ctr n) terms 0 {} with
    | error e => rw [hs] at ht; cases ht
    | ok ts => rw [hs] at ht; cases ht; exact flat_sum _ _

end Oper

end Verif
