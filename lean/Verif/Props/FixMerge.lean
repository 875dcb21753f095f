import Verif.Lemmas.Merge
import Verif.Props.Contract
import Verif.Props.ShapeEdits
import Verif.Spec.Slicing
/-!
# C16: merging edges identifies the indices; C19: fixing an index selects a slice (networks)
-/

set_option linter.unusedSectionVars false

namespace Verif

/-! ## C16 -/

section Merge

variable {τ : Type} {R : Type} [CommSemiring R] {tn : TN τ}

/-- C16: `merge_edges` succeeds and the merged network stands for the original sum restricted to the assignments
in which all merged edges (and the target, if it was an edge before) take the same value: the same sum with a copy
tensor on these edges.  Fixed edges range over their fixes, so the common value lies in all of them.
Partial: the listed edges must be distinct (`c16_repeated_violated`) and one of them in use (`c16_unused`). -/
theorem c16_merge_partial (val : τ → List Nat → R) (hc : tn.Consistent) {es : List Nm} {mt dflt : Option Nm} {m : Nm}
    {d : Nat} (h : TN.MergeOK tn es mt dflt m d)
    (hu : ∃ k, (k ∈ es ∨ (k = m ∧ m ∈ tn.edges.keys)) ∧ (tn.Attached k ∨ k ∈ tn.openE)) :
    ∃ tn', tn.mergeEdges es mt dflt = (tn', .ok m) ∧ tn'.Consistent ∧ ∀ idx, tn'.value val idx =
      einsum tn.dom (⟨if m ∈ tn.edges.keys then m :: es else es, copyTen R⟩ :: tn.factors val) tn.openE idx := by
  obtain ⟨tn', rm', touched, h1, h2, h3, h4, h5, h6, h7, h8⟩ := TN.mergeEdges_total hc h
  refine ⟨tn', h1, hc.mergeEdges h1, fun idx => ?_⟩
  have hfac : tn'.factors val = (tn.factors val).map (Factor.rename fun i => if i ∈ es then m else i) := by
    unfold TN.factors
    rw [h3, Dict.mapIf, List.map_map, List.map_map]
    refine List.map_congr_left fun p hp => ?_
    simp only [Function.comp]
    split
    · rfl
    · rename_i hno
      unfold Factor.rename NodeRec.factor
      have : p.2.legs.map (fun i => if i ∈ es then m else i) = p.2.legs := by
        conv_rhs => rw [← List.map_id p.2.legs]
        refine List.map_congr_left fun i hi => ?_
        have : i ∉ es := fun hin => hno ((h2 p.1).2 ⟨i, hin, (hc.adj_iff p.1 i).2
          ⟨p.2, Dict.get?_of_mem hc.nodes_nodup hp, hi⟩⟩)
        simp [this]
      simp only [this]
  unfold TN.value
  rw [hfac, h4]
  have hsub : ∀ e, e ∈ (if m ∈ tn.edges.keys then m :: es else es) ↔ e ∈ es ∨ (e = m ∧ m ∈ tn.edges.keys) := by
    intro e
    split
    · rename_i hm
      simp [hm, or_comm]
    · rename_i hm
      simp [hm]
  have hex : ∀ e ∈ es, e ∈ tn.edges.keys := fun e he => by
    obtain ⟨r, hr, _⟩ := h.edges e he
    exact Dict.mem_keys_of_get? hr
  refine einsum_merge (fun e he => (hsub e).2 (Or.inl he)) (fun e he => ?_) ?_ ?_ (fun x => ?_) (fun e he hem => ?_) idx
  · rcases (hsub e).1 he with h | h
    · exact Or.inr h
    · exact Or.inl h.1
  · by_cases hm : m ∈ tn.edges.keys
    · exact Or.inl ((hsub m).2 (Or.inr ⟨rfl, hm⟩))
    · refine Or.inr fun hu => hm ?_
      rcases (TN.mem_usedEdges_factors hc.nodes_nodup val).1 hu with ⟨n, r, hr, hl⟩ | ho
      · exact hc.legs_exist n r hr m hl
      · exact hc.open_exist m ho
  · obtain ⟨k, hk, hku⟩ := hu
    exact ⟨k, (hsub k).2 hk, (TN.mem_usedEdges_factors hc.nodes_nodup val).2 hku⟩
  · have hl : tn'.dom m = rm'.dom := by
      unfold TN.dom
      rw [h5]
    rw [hl, h7]
    have hdom : ∀ e r, tn.edges.get? e = some r → tn.dom e = r.dom := fun e r hr => by
      unfold TN.dom
      rw [hr]
    constructor
    · rintro ⟨_, h9, h10⟩ e he
      rcases (hsub e).1 he with h' | ⟨rfl, h'⟩
      · obtain ⟨r, hr, _⟩ := h.edges e h'
        rw [hdom e r hr]; exact h10 e h' r hr
      · obtain ⟨r, hr⟩ := Dict.exists_get? h'
        rw [hdom e r hr]; exact h9 r hr
    · intro hall
      refine ⟨?_, fun r hr => ?_, fun e he r hr => ?_⟩
      · obtain ⟨e, he⟩ := List.exists_mem_of_ne_nil es h.ne
        obtain ⟨r, hr, hd, hf⟩ := h.edges e he
        have := hall e ((hsub e).2 (Or.inl he))
        rw [hdom e r hr] at this
        cases hfx : r.fix with
        | none => simpa [EdgeRec.dom, hfx, hd] using this
        | some f => exact hf f hfx x (by simpa [EdgeRec.dom, hfx] using this)
      · rw [← hdom m r hr]
        exact hall m ((hsub m).2 (Or.inr ⟨rfl, Dict.mem_keys_of_get? hr⟩))
      · rw [← hdom e r hr]
        exact hall e ((hsub e).2 (Or.inl he))
  · unfold TN.dom
    rw [h8 e hem, if_neg fun h => he ((hsub e).2 (Or.inl h))]

/-- C16, edges not in use: merging edges that are on no leg and not open changes nothing in the sum. -/
theorem c16_unused (val : τ → List Nat → R) (hc : tn.Consistent) {es : List Nm} {mt dflt : Option Nm} {m : Nm}
    {d : Nat} (h : TN.MergeOK tn es mt dflt m d) (hu : ∀ k, k ∈ es ∨ k = m → ¬ (tn.Attached k ∨ k ∈ tn.openE)) :
    ∃ tn', tn.mergeEdges es mt dflt = (tn', .ok m) ∧ ∀ idx, tn'.value val idx = tn.value val idx := by
  obtain ⟨tn', rm', touched, h1, h2, h3, h4, h5, h6, h7, h8⟩ := TN.mergeEdges_total hc h
  refine ⟨tn', h1, fun idx => ?_⟩
  have hn : tn'.nodes = tn.nodes := by
    rw [h3, Dict.mapIf]
    conv_rhs => rw [← List.map_id tn.nodes]
    refine List.map_congr_left fun p hp => ?_
    have : touched p.1 = false := by
      rw [← Bool.not_eq_true, h2]
      rintro ⟨e, he, ha⟩
      obtain ⟨r, hr, hl⟩ := (hc.adj_iff p.1 e).1 ha
      exact hu e (Or.inl he) (Or.inl ⟨p.1, r, hr, hl⟩)
    simp [this]
  have ho : tn'.openE = tn.openE := by
    rw [h4]
    conv_rhs => rw [← List.map_id tn.openE]
    refine List.map_congr_left fun i hi => ?_
    have : i ∉ es := fun hin => hu i (Or.inl hin) (Or.inr hi)
    simp [this]
  unfold TN.value TN.factors
  rw [hn, ho]
  refine einsum_dom_congr fun e he => ?_
  have he := (TN.mem_usedEdges_factors hc.nodes_nodup val).1 he
  unfold TN.dom
  rw [h8 e fun h => hu e (Or.inr h) he, if_neg fun h => hu e (Or.inl h) he]

end Merge

/-- The hypotheses of `c16_merge_partial` are met: a matrix and a vector, the row edge (open) is merged with the edge
of the vector and a fixed, otherwise unused edge, into a new edge; the merged network is the expected one. -/
def mergeExample : List (Op (TVal Nat)) :=
  [.addNode (some (.int 0)) (.int 0) (some [.str "a", .str "b"]) (arrVal [2, 2] fun i => i.headD 0 + 10) false,
   .addNode (some (.int 1)) (.int 1) (some [.str "c"]) (arrVal [2] fun i => i.headD 0 + 1) false,
   .openEdge (.str "a") none, .addEdge (some (.str "g")) (some 2), .fixEdge (.str "g") [1] false]

example : ∃ (tn tn' : TN (TVal Nat)), TN.run {} mergeExample = some tn ∧ tn.Consistent ∧
    TN.MergeOK tn [.str "a", .str "c", .str "g"] (some (.str "m")) none (.str "m") 2 ∧ .str "a" ∈ tn.openE ∧
    tn.mergeEdges [.str "a", .str "c", .str "g"] (some (.str "m")) none = (tn', .ok (.str "m")) ∧
    tn'.value TVal.val [0] = 0 ∧ tn'.value TVal.val [1] = 44 := by
  refine ⟨_, _, rfl, c11_consistent_partial (ops := mergeExample)
    ⟨trivial, trivial, trivial, trivial, trivial, trivial⟩ rfl, ?_, by decide, rfl, by decide +kernel, by decide +kernel⟩
  refine ⟨by decide, by decide, ?_, Or.inl rfl, fun r hr => ?_⟩
  · intro e he
    simp only [List.mem_cons, List.not_mem_nil, or_false] at he
    rcases he with rfl | rfl | rfl
    · exact ⟨_, rfl, rfl, by simp⟩
    · exact ⟨_, rfl, rfl, by simp⟩
    · exact ⟨_, rfl, rfl, fun f hf v hv => by cases hf; revert hv; decide +revert⟩
  · have : (none : Option EdgeRec) = some r := hr
    simp at this

/-- C16 fails for a list with a repeated edge: `merge_edges(["a", "a", "b"], "b")` raises a `KeyError` halfway, leaving
a node with a leg on a removed edge. -/
theorem c16_repeated_violated : ∃ (ops : List (Op (TVal Nat))) (tn tn' : TN (TVal Nat)), TN.run {} ops = some tn ∧
    tn.mergeEdges [.str "a", .str "a", .str "b"] (some (.str "b")) none = (tn', .error .key) ∧
    tn'.edges.get? (.str "a") = none ∧ ∃ r, tn'.nodes.get? (.int 0) = some r ∧ r.legs = [.str "a", .str "b"] :=
  ⟨[.addNode (some (.int 0)) (.int 0) (some [.str "a", .str "b"]) (arrVal [2, 2] fun i => i.sum) false], _, _, rfl, rfl,
    rfl, _, rfl, rfl⟩

/-! ## C19 -/

section Fix

variable {τ : Type} {R : Type} [CommSemiring R] {tn tn' : TN τ}

/-- A sequence of calls `fix_index(i, v)`. -/
def TN.fixSeq (tn : TN τ) (fs : List (Nat × Nat)) : Res τ Unit := forLoop (fun t p => t.fixIndex p.1 p.2) fs tn

/-- What `fix_index` does to the network. -/
theorem TN.fixIndex_ok {i v : Nat} (h : tn.fixIndex i v = (tn', .ok ())) :
    ∃ (e : Nm) (r r' : EdgeRec) (d : Nat), tn.openE[i]? = some e ∧ tn.edges.get? e = some r ∧ r.dim = some d ∧ v < d ∧
      tn' = { tn with edges := tn.edges.set e r', openE := tn.openE.eraseIdx i } ∧ r'.dim = some d ∧ r'.fix.isSome ∧
      (∀ x, x ∈ r'.dom ↔ x ∈ r.dom ∧ x = v) ∧
      ((∀ l, r.fix = some l → l.Nodup) → ∀ l, r'.fix = some l → l.Nodup) := by
  unfold TN.fixIndex at h
  cases he : tn.openE[i]? with
  | none => rw [he] at h; simp at h
  | some e =>
    rw [he] at h
    simp only at h
    revert h
    cases hf : tn.fixEdge e [v] with
    | mk t o =>
      cases o with
      | error er => intro h; simp at h
      | ok u =>
        intro h
        obtain ⟨r, r', d, h1, h2, h3, h4, h5, h6, h7, h8⟩ := TN.fixEdge_dom hf
        simp only [Prod.mk.injEq, and_true] at h
        subst h4
        exact ⟨e, r, r', d, rfl, h1, h2, h3 v (by simp), h.symm, h5, h6, fun x => by rw [h7]; simp,
          h8 (by simp)⟩

/-- Some edge is fixed to no value at all. -/
def TN.Void (tn : TN τ) : Prop := ∃ e r, tn.edges.get? e = some r ∧ r.fix = some []

open Classical in
/-- The sum, with the convention that it is zero when an edge, even one not in use, is fixed to no value. -/
noncomputable def TN.value0 (val : τ → List Nat → R) (tn : TN τ) (idx : List Nat) : R :=
  if tn.Void then 0 else tn.value val idx

theorem TN.value0_fixIndex (val : τ → List Nat → R) {i v : Nat} (h : tn.fixIndex i v = (tn', .ok ()))
    (idx : List Nat) : tn'.value0 val idx = tn.value0 val (idx.insertIdx i v) := by
  obtain ⟨e, r, r', d, h1, h2, h3, h4, rfl, h6, h7, h8, _⟩ := TN.fixIndex_ok h
  have hg : ∀ x, Dict.get? (tn.edges.set e r') x = if e = x then some r' else tn.edges.get? x := fun x => by
    rw [Dict.get?_set]
  have hdom : ∀ x, ({ tn with edges := tn.edges.set e r', openE := tn.openE.eraseIdx i } : TN τ).dom x =
      if x = e then r'.dom else tn.dom x := fun x => TN.dom_set tn e x r'
  have he : tn.dom e = r.dom := by
    unfold TN.dom
    rw [h2]
  unfold TN.value0
  by_cases hV : tn.Void
  · rw [if_pos hV, if_pos]
    obtain ⟨x, rx, hx1, hx2⟩ := hV
    by_cases hxe : e = x
    · subst hxe
      rw [h2] at hx1
      cases hx1
      refine ⟨e, r', (hg e).trans (if_pos rfl), ?_⟩
      obtain ⟨l, hl⟩ := Option.isSome_iff_exists.1 h7
      rw [hl]
      congr 1
      refine List.eq_nil_iff_forall_not_mem.2 fun x hx => ?_
      have := (h8 x).1 (by simpa [EdgeRec.dom, hl] using hx)
      simp [EdgeRec.dom, hx2] at this
    · exact ⟨x, rx, by rw [show Dict.get? _ x = _ from hg x, if_neg hxe]; exact hx1, hx2⟩
  · rw [if_neg hV]
    by_cases hv : v ∈ r.dom
    · rw [if_neg]
      · refine einsum_fix (dom := tn.dom) (dom' := TN.dom _) h1 (fun x => ?_) (fun x hx => ?_) (Or.inl ?_) idx
        · rw [hdom, if_pos rfl, h8, he]
        · rw [hdom, if_neg hx]
        · rw [he]; exact hv
      · rintro ⟨x, rx, hx1, hx2⟩
        have hx1 : Dict.get? (tn.edges.set e r') x = some rx := hx1
        rw [hg] at hx1
        split at hx1
        · cases hx1
          have := (h8 v).2 ⟨hv, rfl⟩
          simp [EdgeRec.dom, hx2] at this
        · exact hV ⟨x, rx, hx1, hx2⟩
    · rw [if_pos]
      · exact (einsum_slice_zero h1 (by rw [he]; exact hv) idx).symm
      · refine ⟨e, r', (hg e).trans (if_pos rfl), ?_⟩
        obtain ⟨l, hl⟩ := Option.isSome_iff_exists.1 h7
        rw [hl]
        congr 1
        refine List.eq_nil_iff_forall_not_mem.2 fun x hx => ?_
        obtain ⟨h9, h10⟩ := (h8 x).1 (by simpa [EdgeRec.dom, hl] using hx)
        exact hv (h10 ▸ h9)

theorem TN.value0_fixSeq (val : τ → List Nat → R) {fs : List (Nat × Nat)} (h : tn.fixSeq fs = (tn', .ok ()))
    (idx : List Nat) : tn'.value0 val idx = tn.value0 val (unslice fs idx) := by
  induction fs generalizing tn with
  | nil =>
    simp only [TN.fixSeq, forLoop, Prod.mk.injEq, and_true] at h
    subst h
    rfl
  | cons p fs ih =>
    obtain ⟨i, v⟩ := p
    obtain ⟨t1, h1, h2⟩ := forLoop_cons_ok h
    rw [ih h2, TN.value0_fixIndex val h1]
    rfl

/-- C19 for networks: after any sequence of successful `fix_index` calls the network stands for the slice of the
original tensor, provided no edge ends up fixed to no value at all (that case: `c19_conflict`). -/
theorem c19_network (val : τ → List Nat → R) {fs : List (Nat × Nat)} (h : tn.fixSeq fs = (tn', .ok ()))
    (hv : ¬ tn'.Void) (idx : List Nat) : tn'.value val idx = tn.value val (unslice fs idx) := by
  have hv0 : ¬ tn.Void := by
    induction fs generalizing tn with
    | nil =>
      simp only [TN.fixSeq, forLoop, Prod.mk.injEq, and_true] at h
      subst h
      exact hv
    | cons p fs ih =>
      obtain ⟨t1, h1, h2⟩ := forLoop_cons_ok h
      have := ih h2
      rintro ⟨x, rx, hx1, hx2⟩
      obtain ⟨e, r, r', d, k1, k2, k3, k4, rfl, k6, k7, k8, _⟩ := TN.fixIndex_ok h1
      refine this ?_
      by_cases hxe : e = x
      · subst hxe
        rw [k2] at hx1
        cases hx1
        refine ⟨e, r', by rw [Dict.get?_set, if_pos rfl], ?_⟩
        obtain ⟨l, hl⟩ := Option.isSome_iff_exists.1 k7
        rw [hl]
        congr 1
        refine List.eq_nil_iff_forall_not_mem.2 fun x hx => ?_
        have := (k8 x).1 (by simpa [EdgeRec.dom, hl] using hx)
        simp [EdgeRec.dom, hx2] at this
      · exact ⟨x, rx, by rw [Dict.get?_set, if_neg hxe]; exact hx1, hx2⟩
  have := TN.value0_fixSeq val h idx
  unfold TN.value0 at this
  rwa [if_neg hv, if_neg hv0] at this

/-- C19, conflicting fixes: if the fixes leave some edge without a value, the slice of the original tensor is zero
(and `contract` returns zeros, see `c19_contract_partial`). -/
theorem c19_conflict (val : τ → List Nat → R) {fs : List (Nat × Nat)} (h : tn.fixSeq fs = (tn', .ok ()))
    (hv : tn'.Void) (hv0 : ¬ tn.Void) (idx : List Nat) : tn.value val (unslice fs idx) = 0 := by
  have := TN.value0_fixSeq val h idx
  unfold TN.value0 at this
  rw [if_pos hv, if_neg hv0] at this
  exact this.symm

/-- `fix_index` succeeds for an index and a value in range. -/
theorem TN.fixIndex_total {sh : List Nat} (hsh : tn.shape? = some (sh.map some)) {i v d : Nat} (hi : sh[i]? = some d)
    (hv : v < d) : ∃ tn', tn.fixIndex i v = (tn', .ok ()) := by
  rw [shape?_eq] at hsh
  have key : ∀ (l : List Nm) (sh : List Nat) (i : Nat), dimsOf tn.edges l = some (sh.map some) → sh[i]? = some d →
      ∃ e r, l[i]? = some e ∧ tn.edges.get? e = some r ∧ r.dim = some d := by
    intro l
    induction l with
    | nil =>
      intro sh i h1 h2
      simp [dimsOf] at h1
      subst h1
      simp at h2
    | cons e l ih =>
      intro sh i h1 h2
      rw [dimsOf_cons] at h1
      cases hr : tn.edges.get? e with
      | none => rw [hr] at h1; simp at h1
      | some r =>
        cases hl : dimsOf tn.edges l with
        | none => rw [hr, hl] at h1; simp at h1
        | some s =>
          rw [hr, hl] at h1
          simp only [Option.map_some, Option.bind_some, Option.some.injEq] at h1
          cases sh with
          | nil => simp at h1
          | cons x sh =>
            simp only [List.map_cons, List.cons.injEq] at h1
            cases i with
            | zero =>
              simp only [List.getElem?_cons_zero, Option.some.injEq] at h2
              exact ⟨e, r, rfl, hr, by rw [h1.1, h2]⟩
            | succ i =>
              simp only [List.getElem?_cons_succ] at h2
              exact ih sh i (by rw [hl, h1.2]) h2
  obtain ⟨e, r, h1, h2, h3⟩ := key tn.openE sh i hsh hi
  obtain ⟨t, ht⟩ := TN.fixEdge_total (vals := [v]) h2 h3 (by simpa using hv)
  unfold TN.fixIndex
  simp only [h1, ht]
  exact ⟨_, rfl⟩

theorem TN.fixIndex_shape {sh : List Nat} (hsh : tn.shape? = some (sh.map some)) {i v : Nat}
    (h : tn.fixIndex i v = (tn', .ok ())) : tn'.shape? = some ((sh.eraseIdx i).map some) := by
  obtain ⟨e, r, r', d, h1, h2, h3, h4, rfl, h6, h7, h8, _⟩ := TN.fixIndex_ok h
  rw [shape?_eq] at hsh ⊢
  have : dimsOf (tn.edges.set e r') tn.openE = dimsOf tn.edges tn.openE := by
    refine dimsOf_congr fun x _ => ?_
    rw [Dict.get?_set]
    split
    · rename_i hx
      rw [← hx, h2]
      simp [h3, h6]
    · rfl
  rw [← List.eraseIdx_map]
  exact dimsOf_eraseIdx (by rw [this, hsh]) i

end Fix

section FixContract

variable {R : Type} [CommSemiring R] [Star R] {L : Type} [AddCommMonoid L] {contract : TVal R → Option (Arr R)}
  {tn tn' : TN (TVal R)} {srt : List Nm → List Nm} {E : Engine L R} {ex : L → R} {memory : Nat}

/-- Fix lists have no repetition (they come from Python sets). -/
def TN.FixNodup {τ : Type} (tn : TN τ) : Prop := ∀ e r l, tn.edges.get? e = some r → r.fix = some l → l.Nodup

/-- Every fixed edge that is not open is fixed to at most one value. -/
def AtMostOne {τ : Type} (tn : TN τ) : Prop :=
  ∀ e r l, tn.edges.get? e = some r → e ∉ tn.openE → r.fix = some l →
    l = [] ∨ ∃ v d, l = [v] ∧ r.dim = some d ∧ v < d

theorem completable_fixIndex {i v : Nat} (hC : Completable contract tn) (hN : tn.FixNodup) (hA : AtMostOne tn)
    (h : tn.fixIndex i v = (tn', .ok ())) : Completable contract tn' ∧ tn'.FixNodup ∧ AtMostOne tn' := by
  have hcons : tn'.Consistent := by
    have := hC.cons
    obtain ⟨e, r, r', d, h1, h2, h3, h4, rfl, h6, h7, h8, h9⟩ := TN.fixIndex_ok h
    have hk : (Dict.set tn.edges e r').keys = tn.edges.keys := by
      rw [Dict.keys_set, if_pos (Dict.mem_keys_of_get? h2)]
    refine ⟨this.nodes_nodup, ?_, ?_, ?_, this.adj_iff, this.adj_nodup⟩
    · show (Dict.set tn.edges e r').keys.Nodup
      rw [hk]; exact this.edges_nodup
    · intro n r0 hr0 x hx
      show x ∈ (Dict.set tn.edges e r').keys
      rw [hk]; exact this.legs_exist n r0 hr0 x hx
    · intro x hx
      show x ∈ (Dict.set tn.edges e r').keys
      rw [hk]; exact this.open_exist x (List.mem_of_mem_eraseIdx hx)
  obtain ⟨e, r, r', d, h1, h2, h3, h4, rfl, h6, h7, h8, h9⟩ := TN.fixIndex_ok h
  have hk : (Dict.set tn.edges e r').keys = tn.edges.keys := by
    rw [Dict.keys_set, if_pos (Dict.mem_keys_of_get? h2)]
  have hg : ∀ x, Dict.get? (tn.edges.set e r') x = if e = x then some r' else tn.edges.get? x := fun x => by
    rw [Dict.get?_set]
  have hl' : ∀ l x, r'.fix = some l → x ∈ l → x = v := by
    intro l x hl hx
    exact ((h8 x).1 (by simpa [EdgeRec.dom, hl] using hx)).2
  have hd : ∀ x rx dx, tn.edges.get? x = some rx → rx.dim = some dx →
      ∃ rx', Dict.get? (tn.edges.set e r') x = some rx' ∧ rx'.dim = some dx := by
    intro x rx dx hx hdx
    rw [hg]
    split
    · rename_i hxe
      subst hxe
      rw [h2] at hx
      cases hx
      exact ⟨r', rfl, by rw [h6, ← h3, hdx]⟩
    · exact ⟨rx, hx, hdx⟩
  have hopen : ∀ x, x ∈ tn.openE.eraseIdx i → x ∈ tn.openE := fun x hx => List.mem_of_mem_eraseIdx hx
  refine ⟨⟨hcons, ?_, ⟨?_, ?_⟩, ?_, ?_, hC.noStar, hC.tens, hC.arr⟩, ?_, ?_⟩
  · intro x hx
    obtain ⟨rx, dx, k1, k2, k3⟩ := hC.dims x (hx.elim (fun h => Or.inl h) fun h => Or.inr (hopen x h))
    show ∃ er d, Dict.get? (tn.edges.set e r') x = some er ∧ _
    rw [hg]
    split
    · rename_i hxe
      exact ⟨r', d, rfl, h6, fun l hl y hy => hl' l y hl hy ▸ h4⟩
    · exact ⟨rx, dx, k1, k2, k3⟩
  · intro n r0 hr0
    obtain ⟨t, sh, k1, k2, k3, k4⟩ := hC.ready.nodes n r0 hr0
    refine ⟨t, sh, k1, k2, k3, fun j x hx => ?_⟩
    obtain ⟨er, k5, k6⟩ := k4 j x hx
    have hj : j < sh.length := by
      rw [k3]
      exact (List.getElem?_eq_some_iff.1 hx).1
    rw [List.getElem?_eq_getElem hj] at k6 ⊢
    exact hd x er _ k5 k6
  · intro x hx
    obtain ⟨er, dx, k1, k2⟩ := hC.ready.opens x (hopen x hx)
    obtain ⟨rx', k3, k4⟩ := hd x er dx k1 k2
    exact ⟨rx', dx, k3, k4⟩
  · intro x hx k hk1
    show _ ∉ (Dict.set tn.edges e r').keys
    rw [hk]
    exact hC.fresh x (hopen x hx) k hk1
  · intro x hx k
    exact hC.nodeFresh x (hopen x hx) k
  · intro x rx l hx hl
    have hx : Dict.get? (tn.edges.set e r') x = some rx := hx
    rw [hg] at hx
    split at hx
    · cases hx
      exact h9 (fun l hl => hN e r l h2 hl) l hl
    · exact hN x rx l hx hl
  · intro x rx l hx hno hl
    have hx : Dict.get? (tn.edges.set e r') x = some rx := hx
    rw [hg] at hx
    split at hx
    · cases hx
      have hnd := h9 (fun l hl => hN e r l h2 hl) l hl
      cases l with
      | nil => exact Or.inl rfl
      | cons a l =>
        refine Or.inr ⟨v, d, ?_, h6, h4⟩
        have ha := hl' _ a hl List.mem_cons_self
        cases l with
        | nil => rw [ha]
        | cons b l =>
          have hb := hl' _ b hl (List.mem_cons_of_mem _ List.mem_cons_self)
          rw [ha, hb] at hnd
          simp at hnd
    · rename_i hxe
      refine hA x rx l hx (fun hc => hno ?_) hl
      have : x ∈ tn.openE := hc
      rcases (mem_of_eraseIdx_or h1 x).1 this with h | h
      · exact absurd h.symm hxe
      · exact h

/-- C19 for `contract`: any sequence of fixes in range succeeds, and contracting afterwards gives the slice of the
tensor the original network stands for (repeated open edges, conflicting fixes of one edge included).  Partial: the
assumptions of `c01_contract_partial` on the original network. -/
theorem c19_contract_partial (hE : E.Sound ex) (hsrt : ∀ l, (srt l).Perm l) (hC : Completable contract tn)
    (hF : ClosedFixOK tn) (hN : tn.FixNodup) {sh : List Nat} (hsh : tn.shape? = some (sh.map some))
    {fs : List (Nat × Nat)} (hfs : FixesIn fs sh) {finder : TN (TVal R) → Option Plan}
    (hfind : ∀ t t', tn.fixSeq fs = (t, .ok ()) → t.completeDelta = (t', .ok ()) →
      ∃ p, finder t' = some p ∧ SchemeOK t' p.order memory p.width ∧ SliceOK t' p.slices) :
    ∃ tn' r, tn.fixSeq fs = (tn', .ok ()) ∧ tn'.contractWith contract memory finder srt E ex = .ok r ∧
      r.shape = sliceShape fs sh ∧
      ∀ idx, InRange r.shape idx → r.get idx = tn.value TVal.val (unslice fs idx) := by
  have hA : AtMostOne tn := fun e r l h1 h2 h3 => Or.inr (hF e r l h1 h2 h3)
  have key : ∀ (fs : List (Nat × Nat)) (tn : TN (TVal R)) (sh : List Nat), Completable contract tn → tn.FixNodup →
      AtMostOne tn → tn.shape? = some (sh.map some) → FixesIn fs sh →
      ∃ tn', tn.fixSeq fs = (tn', .ok ()) ∧ Completable contract tn' ∧ AtMostOne tn' ∧
        tn'.shape? = some ((sliceShape fs sh).map some) := by
    intro fs
    induction fs with
    | nil => intro tn sh h1 h2 h3 h4 _; exact ⟨tn, rfl, h1, h3, h4⟩
    | cons p fs ih =>
      obtain ⟨i, v⟩ := p
      intro tn sh h1 h2 h3 h4 ⟨⟨d, h5, h6⟩, h7⟩
      obtain ⟨t1, k1⟩ := TN.fixIndex_total h4 h5 h6
      obtain ⟨k2, k3, k4⟩ := completable_fixIndex h1 h2 h3 k1
      obtain ⟨t2, k5, k6⟩ := ih t1 (sh.eraseIdx i) k2 k3 k4 (TN.fixIndex_shape h4 k1) h7
      refine ⟨t2, ?_, k6⟩
      show forLoop _ ((i, v) :: fs) tn = _
      unfold forLoop
      simp only [k1]
      exact k5
  obtain ⟨tn', h1, h2, h3, h4⟩ := key fs tn sh hC hN hA hsh hfs
  have hval : ∀ idx, tn'.value0 TVal.val idx = tn.value TVal.val (unslice fs idx) := by
    intro idx
    rw [TN.value0_fixSeq TVal.val h1]
    unfold TN.value0
    split
    · rename_i hV
      obtain ⟨e, r, he, hr⟩ := hV
      refine (value_empty hC.cons he hr (Or.inr ?_) _).symm
      by_contra hno
      obtain ⟨v, d, hl, _⟩ := hF e r [] he hno hr
      simp at hl
    · rfl
  obtain ⟨tc, hd, hcc⟩ := h2.complete
  obtain ⟨p, hp, hS, hsl⟩ := hfind tn' tc h1 hd
  have hcw : tn'.contractWith contract memory finder srt E ex = tn'.compileExec contract memory srt E ex p := by
    unfold TN.contractWith
    rw [hd]
    dsimp only
    rw [hp]
  have shape_eq : ∀ r : Arr R, tn'.shape? = some (r.shape.map some) → r.shape = sliceShape fs sh := by
    intro r hr
    rw [h4, Option.some.injEq] at hr
    exact (List.map_injective_iff.2 (Option.some_injective _) hr).symm
  by_cases hz : ∃ e r, tn'.edges.get? e = some r ∧ e ∉ tn'.openE ∧ r.fix = some []
  · obtain ⟨e, er, he, hno, hf⟩ := hz
    obtain ⟨k2, _, k4, k5, k6, k7, k8, _, _, k10⟩ := hcc
    obtain ⟨r2, hr2, hf2⟩ := k10 e er he hno
    obtain ⟨r, g1, gsh, g0⟩ := compileRun_empty (p := p) (E := E) (ex := ex) hsrt k4 k2 hS.memory k8 hr2
      (by rw [hf2, hf])
    refine ⟨tn', r, h1, ?_, ?_, fun idx _ => ?_⟩
    · rw [hcw]
      unfold TN.compileExec
      rw [hd]
      exact g1
    · refine shape_eq r ?_
      rw [← k7, shape_dims k4, gsh]
    · rw [g0, ← hval idx]
      unfold TN.value0
      rw [if_pos ⟨e, er, he, hf⟩]
  · have hF' : ClosedFixOK tn' := by
      intro e r l k1 k2 k3
      rcases h3 e r l k1 k2 k3 with rfl | h
      · exact absurd ⟨e, r, k1, k2, k3⟩ hz
      · exact h
    obtain ⟨r, g1, g2, g3⟩ := compileExec_spec hE hsrt h2 hF' hd hS hsl
    refine ⟨tn', r, h1, hcw.trans g1, shape_eq r g2, fun idx hi => ?_⟩
    rw [g3 idx hi, ← hval idx]
    unfold TN.value0
    split
    · rename_i hV
      obtain ⟨e, er, he, hr⟩ := hV
      refine value_empty h2.cons he hr (Or.inr ?_) _
      by_contra hno
      exact hz ⟨e, er, he, hno, hr⟩
    · rfl

theorem TN.fixSeq_nodes {τ : Type} {tn tn' : TN τ} {fs : List (Nat × Nat)} (h : tn.fixSeq fs = (tn', .ok ())) :
    tn'.nodes = tn.nodes := by
  induction fs generalizing tn with
  | nil =>
    simp only [TN.fixSeq, forLoop, Prod.mk.injEq, and_true] at h
    rw [h]
  | cons p fs ih =>
    obtain ⟨t1, h1, h2⟩ := forLoop_cons_ok h
    obtain ⟨e, r, r', d, k1, k2, k3, k4, h3, _⟩ := TN.fixIndex_ok h1
    rw [ih h2, h3]

/-- C19 for `contract()` with the default order finder. -/
theorem c19_default_partial (hE : E.Sound ex) (hsrt : ∀ l, (srt l).Perm l) (hC : Completable contract tn)
    (hF : ClosedFixOK tn) (hN : tn.FixNodup) {sh : List Nat} (hsh : tn.shape? = some (sh.map some))
    {fs : List (Nat × Nat)} (hfs : FixesIn fs sh) (hn1 : .str "#" ∉ tn.nodes.keys)
    (hn2 : ∀ j, Nm.pair (.str "#") (.int j) ∉ tn.nodes.keys)
    {width : TN (TVal R) → List OrderStep → Nat} (hw : ∀ t o, width t o * 3 * 2 ^ 4 ≤ memory * 2 ^ 30) :
    ∃ tn' r, tn.fixSeq fs = (tn', .ok ()) ∧
      tn'.contractWith contract memory (defaultFinder srt width) srt E ex = .ok r ∧ r.shape = sliceShape fs sh ∧
      ∀ idx, InRange r.shape idx → r.get idx = tn.value TVal.val (unslice fs idx) := by
  refine c19_contract_partial hE hsrt hC hF hN hsh hfs fun t t' h1 h2 => ⟨_, rfl, ⟨?_, hw _ _⟩, sliceOK_nil⟩
  have hCt : Completable contract t := by
    have key : ∀ (fs : List (Nat × Nat)) (tn : TN (TVal R)), Completable contract tn → tn.FixNodup → AtMostOne tn →
        tn.fixSeq fs = (t, .ok ()) → Completable contract t := by
      intro fs
      induction fs with
      | nil =>
        intro tn k1 _ _ h
        simp only [TN.fixSeq, forLoop, Prod.mk.injEq, and_true] at h
        exact h ▸ k1
      | cons p fs ih =>
        intro tn k1 k2 k3 h
        obtain ⟨t1, h1, h2⟩ := forLoop_cons_ok h
        obtain ⟨k4, k5, k6⟩ := completable_fixIndex k1 k2 k3 h1
        exact ih t1 k4 k5 k6 h2
    exact key fs tn hC hN (fun e r l h1 h2 h3 => Or.inr (hF e r l h1 h2 h3)) h1
  obtain ⟨t2, h3, h4, _, _, _, _, _, _, _, h5, _⟩ := hCt.complete
  rw [h2, Prod.mk.injEq] at h3
  obtain ⟨rfl, _⟩ := h3
  have hnn := TN.fixSeq_nodes h1
  refine defaultOrder_ok h4 hsrt (fun hc => ?_) (fun j hc => ?_)
  · rcases h5 _ hc with h | h | ⟨e, k, h⟩
    · exact hn1 (hnn ▸ h)
    · simp at h
    · simp [deltaNode, Nm.triple] at h
  · rcases h5 _ hc with h | h | ⟨e, k, h⟩
    · exact hn2 j (hnn ▸ h)
    · simp [Nm.pair] at h
    · simp [deltaNode, Nm.triple, Nm.pair] at h

end FixContract

/-- The hypotheses of `c19_default_partial` are met by the example network (shape 2, 2, 2, 2; its first and third open
edge are the same edge, fixed to 1) with three fixes, the first of which conflicts with the existing fix. -/
example : ∃ (tn tn' : TN (TVal Nat)) (r : Arr Nat), TN.run {} contractExample = some tn ∧
    tn.fixSeq [(0, 0), (1, 1), (0, 1)] = (tn', .ok ()) ∧
    tn'.contractWith arrContract 16 (defaultFinder id fun _ _ => 0) id plainEngine (fun _ => 1) = .ok r ∧
    r.shape = [2] ∧ ∀ idx, InRange r.shape idx → r.get idx = tn.value TVal.val (unslice [(0, 0), (1, 1), (0, 1)] idx) := by
  obtain ⟨tn, h0, h1, h2, h3, h4, _⟩ := contractExample_ok
  have hN : tn.FixNodup := by
    cases h0
    intro e r l he hl
    have hm := Dict.mem_of_get? he
    have : ∀ p ∈ ([(.str "a", ⟨some 2, some [1]⟩), (.str "b", ⟨some 3, none⟩), (.str "c", ⟨some 2, none⟩),
        (.str "f", ⟨some 2, some [1]⟩), (.str "z", ⟨some 2, none⟩)] : List (Nm × EdgeRec)),
        ∀ l, p.2.fix = some l → l.Nodup := by
      simp
    exact this (e, r) hm l hl
  have hsh : tn.shape? = some ([2, 2, 2, 2].map some) := by
    cases h0
    rfl
  obtain ⟨tn', r, h5, h6, h7, h8⟩ := c19_default_partial plainEngine_sound (srt := id) (fun l => List.Perm.refl l) h1 h2
    hN hsh (fs := [(0, 0), (1, 1), (0, 1)]) ⟨⟨2, rfl, by omega⟩, ⟨2, rfl, by omega⟩, ⟨2, rfl, by omega⟩, trivial⟩ h3 h4
    (memory := 16) (width := fun _ _ => 0) (by intros; omega)
  exact ⟨tn, tn', r, h0, h5, h6, h7, h8⟩

/-- C19, order of the fixes: fixing index `i` and then index `j` of the result is fixing the corresponding indices
in the other order. -/
theorem c19_order (i j v w : Nat) (h : i ≤ j) (fs : List (Nat × Nat)) (idx : List Nat) (hj : j ≤ (unslice fs idx).length) :
    unslice ((i, v) :: (j, w) :: fs) idx = unslice ((j + 1, w) :: (i, v) :: fs) idx := by
  show ((unslice fs idx).insertIdx j w).insertIdx i v = ((unslice fs idx).insertIdx i v).insertIdx (j + 1) w
  exact (List.insertIdx_comm v w h hj).symm

end Verif
