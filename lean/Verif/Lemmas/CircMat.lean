import Verif.Lemmas.CtrlMat
import Verif.Props.Valid
/-!
# Circuits of operations with known matrices
-/

set_option linter.unusedSectionVars false

namespace Verif

/-! ### The shape of a circuit -/

/-- The string reported for a wire: its first and its last end. -/
def endsWord (w : List Port) : List Letter :=
  match w.head?, w.getLast? with
  | some a, some b => if a = b then [Circ.portLetter a] else [Circ.portLetter a, Circ.portLetter b]
  | _, _ => []

theorem endsWord_flip (w : List Port) : endsWord (flipWord w) = (endsWord w).reverse.map Letter.flip := by
  have h1 : (flipWord w).head? = w.getLast?.map Port.flip := by simp [flipWord, List.head?_reverse]
  have h2 : (flipWord w).getLast? = w.head?.map Port.flip := by simp [flipWord, List.getLast?_reverse]
  unfold endsWord
  rw [h1, h2]
  cases w.head? with
  | none => cases w.getLast? <;> rfl
  | some a =>
    cases w.getLast? with
    | none => rfl
    | some b => cases a <;> cases b <;> rfl

theorem isOut_endsWord (w : List Port) : IsOut (endsWord w) ↔ w.getLast? = some .out := by
  unfold endsWord
  cases w with
  | nil => simp [IsOut]
  | cons a w =>
    rw [List.head?_cons]
    cases h : (a :: w).getLast? with
    | none => simp at h
    | some b => cases a <;> cases b <;> decide

theorem isIn_endsWord (w : List Port) : IsIn (endsWord w) ↔ w.head? = some .inp := by
  unfold endsWord
  cases w with
  | nil => simp [IsIn]
  | cons a w =>
    rw [List.head?_cons]
    cases h : (a :: w).getLast? with
    | none => simp at h
    | some b => cases a <;> cases b <;> decide

theorem plain_endsWord (w : List Port) : PlainWord (endsWord w) := by
  have h : ∀ a, Circ.portLetter a = .i ∨ Circ.portLetter a = .o := fun a => by cases a <;> simp [Circ.portLetter]
  unfold endsWord PlainWord
  split
  · split
    · intro l hl; simp only [List.mem_singleton] at hl; subst hl; exact h _
    · intro l hl; simp only [List.mem_cons, List.not_mem_nil, or_false] at hl
      rcases hl with rfl | rfl <;> exact h _
  · simp

theorem report_exact {w : List Port} (hw : Connectable w) : Circ.report (w.map Circ.portLetter) = .ok (endsWord w) := by
  rw [Circ.report, if_pos ((Circ.matchWire_iff w).2 hw)]
  congr 1
  rw [List.length_map]
  cases w with
  | nil => rfl
  | cons p w =>
    have hl := Circ.alternating_last w p hw
    unfold endsWord
    rw [List.head?_cons]
    rcases Nat.mod_two_eq_zero_or_one w.length with h | h
    · have e : 2 - (p :: w).length % 2 = 1 := by simp only [List.length_cons]; omega
      rw [e, hl.2 h]; simp
    · have e : 2 - (p :: w).length % 2 = 2 := by simp only [List.length_cons]; omega
      rw [e]
      cases w with
      | nil => simp at h
      | cons p' w =>
        have hw' := hw
        unfold Connectable at hw'
        rw [List.isChain_cons_cons] at hw'
        have h2 := Circ.alternating_last w p' hw'.2
        rw [List.getLast?_cons_cons, h2.2 (by simp only [List.length_cons] at h; omega)]
        have := hw'.1
        simp [this]

theorem places_length (P : List Letter → Prop) [DecidablePred P] (s : List (List Letter)) :
    (places P s).length = (s.filter fun w => decide (P w)).length := by
  unfold places
  have : s = (List.range s.length).map fun k => s[k]?.getD [] := by
    apply List.ext_getElem?
    intro k
    by_cases hk : k < s.length <;> simp [hk]
  conv_rhs => rw [this]
  rw [List.filter_map, List.length_map]
  rfl

namespace Circ

variable {α : Type} {sh : ShapeFn α}

theorem timeSorted_perm (c : Circ α) : (timeSorted c).Perm c := List.perm_insertionSort _ _

theorem timeSorted_sorted (c : Circ α) : (timeSorted c).Pairwise fun p p' => p.2.time ≤ p'.2.time := by
  have : Std.Total (fun p p' : Nm × OpRec α => p.2.time ≤ p'.2.time) := ⟨fun p p' => le_total _ _⟩
  have : IsTrans (Nm × OpRec α) (fun p p' : Nm × OpRec α => p.2.time ≤ p'.2.time) := ⟨fun _ _ _ => le_trans⟩
  exact List.pairwise_insertionSort _ c

theorem qubitsOf_sorted (c : Circ α) : (qubitsOf c).Pairwise (· < ·) := by
  have h1 := List.pairwise_insertionSort (· ≤ · : Int → Int → Prop) (c.flatMap fun p => p.2.qubits).dedup
  have h2 : (qubitsOf c).Nodup := (List.perm_insertionSort _ _).nodup_iff.2 (List.nodup_dedup _)
  exact (h1.and h2).imp fun h => lt_of_le_of_ne h.1 h.2

theorem mem_qubitsOf {c : Circ α} {q : Int} : q ∈ qubitsOf c ↔ ∃ p ∈ c, q ∈ p.2.qubits := mem_allQubits

/-- The shape of a valid circuit: per qubit, in increasing order, the first and the last end on its wire. -/
theorem shape_exact {c : Circ α} (hf : Fitting sh c) {s : List (List Letter)} (hs : c.shape sh = .ok s) :
    s = (qubitsOf c).map fun q => endsWord (wireWord sh q (timeSorted c)) := by
  have hok := (c35_shape_iff hf).1 ⟨s, hs⟩
  have hfo : Fitting sh c.inOrder := fun p hp => hf p ((inOrder_perm c).mem_iff.1 hp)
  obtain ⟨h1, h2⟩ := useAll_spec c.inOrder {} hfo
  obtain ⟨-, hword⟩ := wired_of_valid hok (timeSorted_perm c) (timeSorted_sorted c)
  unfold shape at hs
  cases hw : useAll sh c.inOrder {} with
  | error e => rw [hw] at hs; cases hs
  | ok w =>
    rw [hw] at hs
    dsimp only at hs
    have := mapM_ok (f := fun q => report (w.str q)) (l := c.allQubits)
      (g := fun q => endsWord (wireWord sh q (timeSorted c))) fun q _ => by
        obtain ⟨l, hl, hc⟩ := hok q
        rw [h2 w hw q, touch_timeline hl, ← hword q l hl]
        simpa using report_exact hc
    rw [this] at hs
    cases hs
    rfl

theorem outs_length {c : Circ α} (hf : Fitting sh c) {s : List (List Letter)} (hs : c.shape sh = .ok s) :
    (outPlaces s).length = (circOuts sh c).length := by
  rw [shape_exact hf hs, outPlaces, places_length, List.filter_map, List.length_map]
  unfold circOuts
  congr 1
  exact List.filter_congr fun q _ => decide_eq_decide.2 (isOut_endsWord _)

theorem ins_length {c : Circ α} (hf : Fitting sh c) {s : List (List Letter)} (hs : c.shape sh = .ok s) :
    (inPlaces s).length = (circIns sh c).length := by
  rw [shape_exact hf hs, inPlaces, places_length, List.filter_map, List.length_map]
  unfold circIns
  congr 1
  exact List.filter_congr fun q _ => decide_eq_decide.2 (isIn_endsWord _)

theorem shape_plain {c : Circ α} (hf : Fitting sh c) {s : List (List Letter)} (hs : c.shape sh = .ok s) :
    ∀ w ∈ s, PlainWord w := by
  rw [shape_exact hf hs]
  intro w hw
  obtain ⟨q, -, rfl⟩ := List.mem_map.1 hw
  exact plain_endsWord _

theorem sorted_unique {l l' : List Int} (h : l.Pairwise (· < ·)) (h' : l'.Pairwise (· < ·)) (hm : ∀ q, q ∈ l ↔ q ∈ l') :
    l = l' :=
  ((List.perm_ext_iff_of_nodup (h.imp fun h => ne_of_lt h) (h'.imp fun h => ne_of_lt h)).2 hm).eq_of_pairwise
    (fun a b _ _ h1 h2 => by omega) h h'

theorem mem_wire {l : Circ α} {q : Int} (h : wireWord sh q l ≠ []) : ∃ p ∈ l, q ∈ p.2.qubits := by
  by_contra hc
  push Not at hc
  refine h (List.flatMap_eq_nil_iff.2 fun p hp => portsAt_nil (hc p hp))

theorem mem_circOuts {c : Circ α} {q : Int} : q ∈ circOuts sh c ↔ (wireWord sh q (timeSorted c)).getLast? = some .out := by
  unfold circOuts
  rw [List.mem_filter, decide_eq_true_eq, and_iff_right_iff_imp]
  intro h
  obtain ⟨p, hp, hq⟩ := mem_wire (sh := sh) (q := q) (l := timeSorted c) fun e => by rw [e] at h; cases h
  exact mem_qubitsOf.2 ⟨p, (timeSorted_perm c).mem_iff.1 hp, hq⟩

theorem mem_circIns {c : Circ α} {q : Int} : q ∈ circIns sh c ↔ (wireWord sh q (timeSorted c)).head? = some .inp := by
  unfold circIns
  rw [List.mem_filter, decide_eq_true_eq, and_iff_right_iff_imp]
  intro h
  obtain ⟨p, hp, hq⟩ := mem_wire (sh := sh) (q := q) (l := timeSorted c) fun e => by rw [e] at h; cases h
  exact mem_qubitsOf.2 ⟨p, (timeSorted_perm c).mem_iff.1 hp, hq⟩

theorem circOuts_sorted (sh : ShapeFn α) (c : Circ α) : (circOuts sh c).Pairwise (· < ·) := (qubitsOf_sorted c).filter _
theorem circIns_sorted (sh : ShapeFn α) (c : Circ α) : (circIns sh c).Pairwise (· < ·) := (qubitsOf_sorted c).filter _

/-! ### The tensors in the converted network -/

section Nodes

variable {τ : Type} [HasShape τ]

/-- Every node carries a tensor with the property. -/
def AllTen (P : τ → Prop) (tn : TN τ) : Prop := ∀ p ∈ tn.nodes, ∃ t, p.2.ten = some t ∧ P t

theorem mem_dict_set {K V : Type} [DecidableEq K] {d : Dict K V} {k : K} {v : V} {p : K × V} (h : p ∈ d.set k v) :
    p = (k, v) ∨ p ∈ d := by
  induction d with
  | nil => simpa [Dict.set] using h
  | cons x d ih =>
    obtain ⟨k', v'⟩ := x
    rw [Dict.set] at h
    split at h
    · rcases List.mem_cons.1 h with h | h
      · exact Or.inl h
      · exact Or.inr (by simp [h])
    · rcases List.mem_cons.1 h with h | h
      · exact Or.inr (by simp [h])
      · rcases ih h with h | h
        · exact Or.inl h
        · exact Or.inr (by simp [h])

theorem convOuts_tn {t : Int} {idx : Nat} {qs : List Int} {is : List Nat} : ∀ {s s' : Conv τ} {es : List Nm},
    convOuts t idx qs is s = .ok (es, s') → s'.tn = s.tn := by
  induction is with
  | nil => intro s s' es h; rw [convOuts] at h; cases h; rfl
  | cons i is ih =>
    intro s s' es h
    rw [convOuts] at h
    split at h
    · cases h
    · split at h
      · split at h
        · cases h
        · next h' => cases h; exact (ih h').trans rfl
      · split at h
        · split at h
          · cases h
          · next h' => cases h; exact (ih h').trans rfl
        · cases h

theorem convIns_tn {t : Int} {idx : Nat} {qs : List Int} {is : List Nat} : ∀ {s s' : Conv τ} {es : List Nm},
    convIns t idx qs is s = .ok (es, s') → s'.tn = s.tn := by
  induction is with
  | nil => intro s s' es h; rw [convIns] at h; cases h; rfl
  | cons i is ih =>
    intro s s' es h
    rw [convIns] at h
    split at h
    · cases h
    · split at h
      · cases h
      · next h' => cases h; exact (ih h').trans rfl

theorem convEdges_nodes {es : List Nm} : ∀ {s s' : Conv τ}, convEdges es s = .ok s' → s'.tn.nodes = s.tn.nodes := by
  induction es with
  | nil => intro s s' h; rw [convEdges] at h; cases h; rfl
  | cons e es ih =>
    intro s s' h
    rw [convEdges] at h
    split at h
    · exact ih h
    · split at h
      · cases h
      · next tn' _ h' =>
        refine (ih h).trans ?_
        obtain ⟨E', c', h1, -⟩ := TN.addEdge_frame s.tn (some e) (some 2)
        rw [h'] at h1
        show tn'.nodes = _
        rw [show tn' = _ from h1]

theorem convPlace_tens {I : OpsIface α τ} {P : τ → Prop} {gate : Nm} {op : α} {outs ins : List Nm} {tn tn' : TN τ}
    (hP : ∀ t, I.tensor op = .ok t → P t) (hA : AllTen P tn) (h : convPlace I gate op outs ins tn = .ok tn') :
    AllTen P tn' := by
  unfold convPlace at h
  split at h
  · split at h
    · cases h
    · split at h
      · next h' =>
        cases h
        have := (fixEdge_nodes tn _ _ _).1.symm.trans (congrArg (fun r => r.1.nodes) h')
        unfold AllTen
        rw [← this]
        exact hA
      · cases h
  · split at h
    · cases h
    · next t ht =>
      split at h
      · next tn' _ h' =>
        cases h
        obtain ⟨-, -, legs, fr, E', -, h3, -⟩ := TN.addNode_ok h'
        intro p hp
        rw [h3] at hp
        rcases mem_dict_set hp with rfl | hp
        · exact ⟨t, rfl, hP t ht⟩
        · exact hA p hp
      · cases h

theorem convLoop_tens {I : OpsIface α τ} {P : τ → Prop} : ∀ {gs : List (Int × Nat × Nm × OpRec α)} {s s' : Conv τ},
    (∀ g ∈ gs, ∀ t, I.tensor g.2.2.2.op = .ok t → P t) → AllTen P s.tn → convLoop I gs s = .ok s' → AllTen P s'.tn
  | [], s, s', _, hA, h => by rw [convLoop] at h; cases h; exact hA
  | (t, idx, gate, r) :: gs, s, s', hP, hA, h => by
    rw [convLoop] at h
    split at h
    · cases h
    · next s1 h1 =>
      refine convLoop_tens (gs := gs) (fun g hg => hP g (by simp [hg])) ?_ h
      unfold convGate at h1
      split at h1
      · cases h1
      · split at h1
        · cases h1
        · next k1 =>
          split at h1
          · cases h1
          · next k2 =>
            split at h1
            · cases h1
            · next k3 =>
              split at h1
              · cases h1
              · next tn' k4 =>
                cases h1
                refine convPlace_tens (tn := _) (hP (t, idx, gate, r) (by simp)) ?_ k4
                unfold AllTen
                rw [convEdges_nodes k3, convIns_tn k2, convOuts_tn k1]
                exact hA

theorem convertPure_tens {I : OpsIface α τ} {P : τ → Prop} {c : Circ α} {tn : TN τ}
    (hP : ∀ p ∈ c, ∀ t, I.tensor p.2.op = .ok t → P t) (h : c.convertPure I = .ok tn) : AllTen P tn := by
  unfold convertPure at h
  split at h
  · cases h
  · cases h
  · split at h
    · cases h
    · next s hs =>
      cases h
      refine convLoop_tens (P := P) (fun g hg t ht => ?_) (fun p hp => by simp at hp) hs
      exact hP _ ((visit_perm c).mem_iff.1 (List.mem_reverse.2 (List.mem_map.2 ⟨g, hg, rfl⟩))) t ht

end Nodes

end Circ

theorem TVal.whole_net {R : Type} {tn : TN (TVal R)} (h : Circ.AllTen TVal.Whole tn) : TVal.Whole (.ofTN tn) := by
  show TVal.Whole (.net tn.nodes _ _ _ _)
  rw [TVal.Whole]
  have : ∀ ns : List (Nm × NodeRec (TVal R)), (∀ p ∈ ns, ∃ t, p.2.ten = some t ∧ TVal.Whole t) → TVal.WholeNodes ns := by
    intro ns
    induction ns with
    | nil => intro _; rw [TVal.WholeNodes]; trivial
    | cons p ns ih =>
      intro h
      obtain ⟨t, h1, h2⟩ := h p (by simp)
      obtain ⟨n, legs, ten, fr⟩ := p
      dsimp only at h1
      subst h1
      rw [TVal.WholeNodes]
      exact ⟨h2, ih fun p hp => h p (by simp [hp])⟩
  exact this _ h

/-! ### Evolutions that agree on basis values -/

variable {R : Type} [CommSemiring R]

/-- The two operations have the same entries. -/
def Act.Same (p p' : Act R) : Prop :=
  p.ins = p'.ins ∧ p.outs = p'.outs ∧ ∀ x, Bits x (p.outs.length + p.ins.length) → p.ten x = p'.ten x

theorem evolve_same {l l' : List (Act R)} (h : List.Forall₂ Act.Same l l') {Ψ Ψ' : (Int → Nat) → R}
    (hΨ : ∀ w, (∀ q, w q < 2) → Ψ w = Ψ' w) {u : Int → Nat} (hu : ∀ q, u q < 2) : evolve l Ψ u = evolve l' Ψ' u := by
  induction h generalizing Ψ Ψ' with
  | nil => exact hΨ u hu
  | @cons p p' l l' h _ ih =>
    refine ih fun w hw => ?_
    obtain ⟨h1, h2, h3⟩ := h
    unfold Act.apply
    rw [← h1, ← h2]
    refine sumOver_congr_reach fun x hx => ?_
    have hxb : ∀ q, x q < 2 := fun q => by
      by_cases hq : q ∈ p.ins
      · exact Finset.mem_range.1 (hx.2 q hq)
      · rw [hx.1 q hq]; exact hw q
    rw [h3, hΨ x hxb]
    refine ⟨by simp, fun b hb => ?_⟩
    rcases List.mem_append.1 hb with hb | hb <;> obtain ⟨q, -, rfl⟩ := List.mem_map.1 hb
    · exact hw q
    · exact hxb q

end Verif
