import Verif.Lemmas.FixAll
import Verif.Lemmas.Delta
import Verif.Props.Contract
/-!
# C22: `fix()`
-/

set_option linter.unusedSectionVars false

namespace Verif

section

variable {E : Type} [DecidableEq E] {R : Type} [CommSemiring R]

/-- Specification: the indices of all legs, given those of the legs that are not pinned; pinned legs get their value. -/
def fillLegs (pin : E → Option Nat) : List E → List Nat → List Nat
  | [], _ => []
  | e :: es, idx =>
    match pin e, idx with
    | some v, idx => v :: fillLegs pin es idx
    | none, x :: idx => x :: fillLegs pin es idx
    | none, [] => []

/-- Specification: a tensor with the pinned legs sliced away. -/
def Factor.pinned (pin : E → Option Nat) (f : Factor E R) : Factor E R :=
  ⟨f.legs.filter fun e => (pin e).isNone, fun idx => f.ten (fillLegs pin f.legs idx)⟩

theorem fillLegs_map (pin : E → Option Nat) (l : List E) (a : E → Nat) :
    fillLegs pin l ((l.filter fun e => (pin e).isNone).map a) = l.map fun e => (pin e).getD (a e) := by
  induction l with
  | nil => rfl
  | cons e l ih =>
    cases h : pin e with
    | some v => simp [h, fillLegs, ih]
    | none => simp [h, fillLegs, ih]

/-- Summing over edges with one value each. -/
theorem sumOver_single {dom : E → Finset Nat} {l : List E} {v : E → Nat} (h : ∀ e ∈ l, dom e = {v e})
    (f : (E → Nat) → R) (a : E → Nat) : sumOver dom l f a = f (fun e => if e ∈ l then v e else a e) := by
  induction l generalizing a with
  | nil => simp
  | cons e l ih =>
    rw [sumOver_cons, h e List.mem_cons_self, Finset.sum_singleton, ih fun e' he' => h e' (List.mem_cons_of_mem _ he')]
    congr 1
    funext e'
    by_cases h1 : e' ∈ l
    · simp [h1]
    · by_cases h2 : e' = e
      · subst h2; simp [h1]
      · simp [h1, h2]

/-- Slicing the tensors at pinned edges keeps the sum. -/
theorem einsum_pinned {dom : E → Finset Nat} {pin : E → Option Nat} (hp : ∀ e v, pin e = some v → dom e = {v})
    (fs : List (Factor E R)) (opn : List E) (idx : List Nat) :
    einsum dom (fs.map (Factor.pinned pin)) opn idx = einsum dom fs opn idx := by
  classical
  let lost := (usedEdges fs opn).filter fun e => (pin e).isSome && !decide (e ∈ opn)
  let kept := (usedEdges fs opn).filter fun e => !((pin e).isSome && !decide (e ∈ opn))
  have hk : ∀ e, e ∈ kept ↔ e ∈ usedEdges fs opn ∧ (pin e = none ∨ e ∈ opn) := by
    intro e
    simp only [kept, List.mem_filter]
    cases pin e <;> simp
  have hl : ∀ e, e ∈ lost ↔ e ∈ usedEdges fs opn ∧ pin e ≠ none ∧ e ∉ opn := by
    intro e
    simp only [lost, List.mem_filter]
    cases pin e <;> simp
  have hknd : kept.Nodup := (nodup_usedEdges fs opn).filter _
  rw [einsum_eq_of_mem (l := kept) hknd, einsum_eq_of_mem (l := kept ++ lost) (fs := fs), sumOver_append]
  · refine sumOver_congr_reach fun b hb => ?_
    have hlv : ∀ e ∈ lost, dom e = {(pin e).getD 0} := by
      intro e he
      cases hv : pin e with
      | none => exact absurd hv ((hl e).1 he).2.1
      | some v => exact hp e v hv
    rw [sumOver_single hlv]
    have h1 : opn.map (fun e => if e ∈ lost then (pin e).getD 0 else b e) = opn.map b :=
      List.map_congr_left fun e he => if_neg fun h => ((hl e).1 h).2.2 he
    rw [h1]
    have h2 : prodAt (fs.map (Factor.pinned pin)) b = prodAt fs (fun e => if e ∈ lost then (pin e).getD 0 else b e) := by
      unfold prodAt
      rw [List.map_map]
      congr 1
      refine List.map_congr_left fun f hf => ?_
      show f.ten (fillLegs pin f.legs ((f.legs.filter fun e => (pin e).isNone).map b)) = f.ten (f.legs.map _)
      rw [fillLegs_map]
      congr 1
      refine List.map_congr_left fun e he => ?_
      have hu : e ∈ usedEdges fs opn := mem_usedEdges.2 (Or.inl ⟨f, hf, he⟩)
      by_cases hlo : e ∈ lost
      · rw [if_pos hlo]
        cases hv : pin e with
        | none => exact absurd hv ((hl e).1 hlo).2.1
        | some v => rfl
      · rw [if_neg hlo]
        cases hv : pin e with
        | none => rfl
        | some v =>
          have hin : e ∈ opn := by
            by_contra hno
            exact hlo ((hl e).2 ⟨hu, by rw [hv]; simp, hno⟩)
          have := hb.2 e ((hk e).2 ⟨hu, Or.inr hin⟩)
          rw [hp e v hv, Finset.mem_singleton] at this
          rw [this]; rfl
    rw [h2]
  · rw [List.nodup_append]
    refine ⟨hknd, (nodup_usedEdges fs opn).filter _, fun x hx y hy hxy => ?_⟩
    subst hxy
    have h1 := (hk x).1 hx
    have h2 := (hl x).1 hy
    exact h1.2.elim h2.2.1 h2.2.2
  · intro e
    rw [List.mem_append, hk, hl]
    by_cases h1 : pin e = none <;> by_cases h2 : e ∈ opn <;> simp [h1, h2]
  · intro e
    rw [hk, mem_usedEdges, mem_usedEdges]
    constructor
    · rintro ⟨⟨f, hf, he⟩ | h, h2⟩
      · by_cases ho : e ∈ opn
        · exact Or.inr ho
        · have hn := h2.resolve_right ho
          refine Or.inl ⟨_, List.mem_map.2 ⟨f, hf, rfl⟩, List.mem_filter.2 ⟨he, by rw [hn]; rfl⟩⟩
      · exact Or.inr h
    · rintro (⟨g, hg, he⟩ | h)
      · obtain ⟨f, hf, rfl⟩ := List.mem_map.1 hg
        obtain ⟨h1, h2⟩ := List.mem_filter.1 he
        exact ⟨Or.inl ⟨f, hf, h1⟩, Or.inl (by simpa using h2)⟩
      · exact ⟨Or.inr h, Or.inr h⟩

end

variable {τ : Type} {R : Type} [CommSemiring R] {tn : TN τ}

/-- An edge is fixed (read off the edge table). -/
def TN.FixedTo (tn : TN τ) (e : Nm) (l : List Nat) : Prop := ∃ r, tn.edges.get? e = some r ∧ r.fix = some l

/-- C22, the structural half: `fix()` removes exactly the legs on fixed edges (the others keep their order), removes
exactly the closed fixed edges, and keeps the open edges, the names and order of the nodes and their tensors. -/
theorem c22_structure_partial (hc : tn.Consistent) :
    (∀ n r, tn.nodes.get? n = some r → ∃ r', (tn.fixAll).nodes.get? n = some r' ∧ r'.ten = r.ten ∧
      r'.legs.Sublist r.legs ∧ ∀ e, e ∈ r'.legs ↔ e ∈ r.legs ∧ ¬ ∃ l, tn.FixedTo e l) ∧
    (tn.fixAll).nodes.keys = tn.nodes.keys ∧ (tn.fixAll).openE = tn.openE ∧
    (∀ e, (tn.fixAll).edges.get? e = none ↔ tn.edges.get? e = none ∨ (e ∉ tn.openE ∧ ∃ l, tn.FixedTo e l)) ∧
    (∀ e r, (tn.fixAll).edges.get? e = some r → tn.edges.get? e = some r) ∧ (tn.fixAll).Consistent := by
  obtain ⟨h1, h2, h3, h4⟩ := TN.fixAll_spec hc
  have hfix : ∀ e, tn.isFixed e = true ↔ ∃ l, tn.FixedTo e l := fun e => by
    rw [TN.isFixed_iff]
    exact ⟨fun ⟨r, l, a, b⟩ => ⟨l, r, a, b⟩, fun ⟨l, r, a, b⟩ => ⟨r, l, a, b⟩⟩
  have hkeys : (tn.fixAll).nodes.keys = tn.nodes.keys := by
    have := congrArg (List.map Prod.fst) h1
    simpa only [List.map_map, Function.comp_def, Dict.keys] using this
  refine ⟨fun n r hr => ?_, hkeys, h3, fun e => ?_, fun e r he => ?_, h4⟩
  · have hm : (n, r.legs.filter (fun e => !tn.isFixed e), r.ten) ∈
        (tn.fixAll).nodes.map fun p => (p.1, p.2.legs, p.2.ten) := by
      rw [h1]
      exact List.mem_map.2 ⟨(n, r), Dict.mem_of_get? hr, rfl⟩
    obtain ⟨⟨n', r'⟩, hp, hq⟩ := List.mem_map.1 hm
    simp only [Prod.mk.injEq] at hq
    obtain ⟨rfl, hl, ht⟩ := hq
    refine ⟨r', Dict.get?_of_mem h4.nodes_nodup hp, ht, ?_, fun e => ?_⟩
    · rw [hl]; exact List.filter_sublist
    · rw [hl, List.mem_filter, ← hfix]
      simp
  · rw [h2, Dict.get?_filterKeys, ← hfix]
    by_cases ho : e ∈ tn.openE <;> cases tn.isFixed e <;> simp [ho]
  · rw [h2, Dict.get?_filterKeys] at he
    split at he
    · exact he
    · simp at he

/-- The values of the edges fixed to exactly one value. -/
def TN.pin (tn : TN τ) (e : Nm) : Option Nat :=
  match tn.edges.get? e with
  | some ⟨_, some [v]⟩ => some v
  | _ => none

theorem TN.pin_eq {e : Nm} {v : Nat} : tn.pin e = some v ↔ tn.FixedTo e [v] := by
  unfold TN.pin TN.FixedTo
  constructor
  · intro h
    split at h
    · rename_i d w hr
      cases h
      exact ⟨_, hr, rfl⟩
    · simp at h
  · rintro ⟨r, hr, hl⟩
    obtain ⟨d, f⟩ := r
    simp only at hl
    subst hl
    rw [hr]

/-- C22, the value half: the legs `fix()` leaves are those of the tensors sliced at the fixed edges, and with the
tensors so sliced the network stands for the same tensor as before, if every fixed edge is fixed to one value.
Partial: `fix()` itself does not slice the tensors (`c22_value_violated`); the compiler issues the slicing commands
separately. -/
theorem c22_sliced_partial (val : τ → List Nat → R) (hc : tn.Consistent)
    (h1 : ∀ e l, tn.FixedTo e l → ∃ v, l = [v]) :
    ((tn.factors val).map (Factor.pinned tn.pin)).map Factor.legs = (tn.fixAll.factors val).map Factor.legs ∧
    ∀ idx, einsum tn.fixAll.dom ((tn.factors val).map (Factor.pinned tn.pin)) tn.fixAll.openE idx = tn.value val idx := by
  obtain ⟨g1, g2, g3, g4⟩ := TN.fixAll_spec hc
  have hfix : ∀ e, tn.isFixed e = (tn.pin e).isSome := by
    intro e
    rw [Bool.eq_iff_iff, TN.isFixed_iff, Option.isSome_iff_exists]
    constructor
    · rintro ⟨r, l, a, b⟩
      obtain ⟨v, rfl⟩ := h1 e l ⟨r, a, b⟩
      exact ⟨v, TN.pin_eq.2 ⟨r, a, b⟩⟩
    · rintro ⟨v, hv⟩
      obtain ⟨r, a, b⟩ := TN.pin_eq.1 hv
      exact ⟨r, _, a, b⟩
  refine ⟨?_, fun idx => ?_⟩
  · have := congrArg (List.map fun q : Nm × List Nm × Option τ => q.2.1) g1
    simp only [List.map_map, Function.comp_def] at this
    unfold TN.factors
    simp only [List.map_map, Function.comp_def, Factor.pinned, NodeRec.factor]
    rw [this]
    refine List.map_congr_left fun p _ => ?_
    refine List.filter_congr fun e _ => ?_
    rw [hfix]
    cases tn.pin e <;> rfl
  · rw [g3]
    unfold TN.value
    rw [← einsum_pinned (pin := tn.pin) (dom := tn.dom)]
    · refine einsum_dom_congr fun e he => ?_
      unfold TN.dom
      rw [g2, Dict.get?_filterKeys, if_pos]
      rw [hfix]
      rcases mem_usedEdges.1 he with ⟨f, hf, hl⟩ | ho
      · obtain ⟨g, _, rfl⟩ := List.mem_map.1 hf
        have := (List.mem_filter.1 hl).2
        cases hv : tn.pin e with
        | none => rfl
        | some v => rw [hv] at this; simp at this
      · simp [ho]
    · intro e v hv
      obtain ⟨r, hr, hl⟩ := TN.pin_eq.1 hv
      unfold TN.dom EdgeRec.dom
      rw [hr]
      dsimp only
      rw [hl]
      rfl

/-- A matrix on "a" (closed, fixed to 1) and "b" (open), a vector on "a". -/
def fixExample : List (Op (TVal Nat)) :=
  [.addNode (some (.int 0)) (.int 0) (some [.str "a", .str "b"]) (arrVal [2, 2] fun i => i.length + 10 * i.headD 0) false,
   .addNode (some (.int 1)) (.int 1) (some [.str "a"]) (arrVal [2] fun i => 3 + i.sum) false,
   .openEdge (.str "b") none, .fixEdge (.str "a") [1] false]

/-- The hypotheses of the two theorems above are met by the example; a value. -/
example : ∃ tn : TN (TVal Nat), TN.run {} fixExample = some tn ∧ tn.Consistent ∧
    (∀ e l, tn.FixedTo e l → ∃ v, l = [v]) ∧ tn.FixedTo (.str "a") [1] ∧
    tn.value TVal.val [0] = 48 := by
  refine ⟨_, rfl, c11_consistent_partial (ops := fixExample) ⟨trivial, trivial, trivial, trivial, trivial⟩ rfl, ?_,
    ⟨_, rfl, rfl⟩, by decide +kernel⟩
  rintro e l ⟨r, hr, hl⟩
  have : ∀ p ∈ ([(.str "a", ⟨some 2, some [1]⟩), (.str "b", ⟨some 2, none⟩)] : List (Nm × EdgeRec)),
      ∀ l, p.2.fix = some l → ∃ v, l = [v] := by
    simp
  exact this (e, r) (Dict.mem_of_get? hr) l hl

/-- C22 fails: `fix()` drops the legs without slicing the tensors.  In the example a node with one leg keeps its
two-dimensional array, so the network no longer stands for the same tensor (it is not even contractible). -/
theorem c22_value_violated : ∃ (tn : TN (TVal Nat)), TN.run {} fixExample = some tn ∧
    (∃ r, tn.fixAll.nodes.get? (.int 0) = some r ∧ r.legs = [.str "b"] ∧
      r.ten.bind HasShape.shape = some [some 2, some 2]) ∧
    tn.fixAll.value TVal.val [0] ≠ tn.value TVal.val [0] :=
  ⟨_, rfl, ⟨_, rfl, rfl, rfl⟩, by decide +kernel⟩

end Verif
