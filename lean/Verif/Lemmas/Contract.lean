import Verif.Lemmas.Retarget
import Verif.Model.Contract
import Verif.Spec.Total
import Verif.Props.Delta
/-! # Lemmas: `contract` of a network -/

set_option linter.unusedSectionVars false

namespace Verif

variable {R : Type} [CommSemiring R] {L : Type} [AddCommMonoid L]

section
variable {τ : Type} [HasShape τ] {tn : TN τ} {val : τ → List Nat → R}

theorem runCompiled_ok {srt : List Nm → List Nm} {E : Engine L R} {ex : L → R} {c : Except Err (Task R × Heap L R)}
    {T T2 : Task R} {h h2 : Heap L R} {r : Arr R} (h1 : c = .ok (T, h))
    (h4 : T.execute srt E ex none h = some (T2, h2, r)) : runCompiled srt E ex c = .ok r := by
  subst h1
  unfold runCompiled
  dsimp only
  rw [h4]

/-- Compiling and executing. -/
theorem compileRun_spec {contract : τ → Option (Arr R)} {memory : Nat} {srt : List Nm → List Nm} {E : Engine L R}
    {ex : L → R} (hE : E.Sound ex) (hsrt : ∀ l, (srt l).Perm l) {p : Plan} (hR : Runnable tn p.slices)
    (hS : SchemeOK tn p.order memory p.width)
    (hcon : ∀ n r t, tn.nodes.get? n = some r → r.ten = some t → Contracts contract val t) :
    ∃ r, compileRun contract memory srt E ex tn p = .ok r ∧ Represents val tn r := by
  obtain ⟨T, h, h1, h2, h3, _⟩ := compile_armed L hR hS hcon
  obtain ⟨h', r, h4, _, h5⟩ := h2.execute_all hR hE hsrt (by rw [h3])
  refine ⟨r, ?_, h5⟩
  exact runCompiled_ok h1 h4

theorem edgeFix_none {es : List (Nm × EdgeRec)} (h : ∃ p ∈ es, p.2.fix = some []) : edgeFix [] es = .ok none := by
  induction es with
  | nil => simp at h
  | cons p es ih =>
    obtain ⟨e, r⟩ := p
    rw [edgeFix, if_neg (by simp)]
    cases hr : r.fix with
    | none =>
      dsimp only
      refine ih ?_
      obtain ⟨q, hq, hf⟩ := h
      rcases List.mem_cons.1 hq with rfl | hq
      · rw [hr] at hf; cases hf
      · exact ⟨q, hq, hf⟩
    | some l =>
      cases l with
      | nil => rfl
      | cons v vs =>
        dsimp only
        rw [ih]
        obtain ⟨q, hq, hf⟩ := h
        rcases List.mem_cons.1 hq with rfl | hq
        · rw [hr] at hf; cases hf
        · exact ⟨q, hq, hf⟩

/-- An edge fixed to no value makes the compiler return the zero task. -/
theorem compileRun_empty {contract : τ → Option (Arr R)} {memory : Nat} {srt : List Nm → List Nm} {E : Engine L R}
    {ex : L → R} (hsrt : ∀ l, (srt l).Perm l) {p : Plan} (hr : tn.Ready) (hc : tn.Consistent)
    (hmem : p.width * 3 * 2 ^ 4 ≤ memory * 2 ^ 30)
    (hcon : ∀ n r t, tn.nodes.get? n = some r → r.ten = some t → Contracts contract val t)
    {e : Nm} {er : EdgeRec} (he : tn.edges.get? e = some er) (hf : er.fix = some []) :
    ∃ r, compileRun contract memory srt E ex tn p = .ok r ∧ r.shape = tn.openE.map tn.dimOf ∧ ∀ idx, r.get idx = 0 := by
  have hex : ∀ p ∈ tn.nodes, ∃ a : Arr R, (p.2.ten.bind contract) = some a := by
    intro p hp
    have hg := Dict.get?_of_mem hc.nodes_nodup hp
    obtain ⟨t, ht, hsh⟩ := (hr.nodes p.1 p.2 hg).legs_dims
    obtain ⟨a, ha1, _⟩ := hcon p.1 p.2 t hg ht _ hsh
    exact ⟨a, by rw [ht]; exact ha1⟩
  have : Inhabited (Arr R) := ⟨zeroArr []⟩
  obtain ⟨g, hg⟩ := choose_fun hex
  have hdata : (tn.nodes.mapM fun p => (p.2.ten.bind contract).map fun a => (p.1, a)) =
      some (tn.nodes.map fun p => (p.1, g p)) := mapM_some fun p hp => by rw [hg p hp]; rfl
  have hshape : (tn.openE.mapM fun e => (tn.edges.get? e).bind EdgeRec.dim) = some (tn.openE.map tn.dimOf) := by
    refine mapM_some fun e he => ?_
    obtain ⟨er, d, h1, h2⟩ := hr.opens e he
    unfold TN.dimOf
    rw [h1, Option.bind_some, h2]
    rfl
  have hgen : genTemplate (R := R) tn p.order p.slices (tn.openE.map tn.dimOf) =
      .ok ({ output := tn.nodes.length }, fun _ => 0) := by
    unfold genTemplate
    simp only
    rw [edgeFix_none ⟨(e, er), Dict.mem_of_get? he, hf⟩]
  have hs0 : srt [] = [] := List.perm_nil.1 (hsrt [])
  have hcomp : compile (L := L) contract memory tn p.width p.order p.slices = .ok
      ({ output := tn.nodes.length, data := tn.nodes.map fun p => (p.1, g p), pre := some false },
        ⟨fun c => if ([] : List Cmd) = [] ∧ c = tn.nodes.length then some (0, zeroArr (tn.openE.map tn.dimOf)) else none,
          fun _ => 0⟩) := by
    unfold compile
    rw [if_neg (Nat.not_lt.2 hmem), hshape]
    dsimp only
    rw [hgen]
    dsimp only
    rw [hdata]
    rfl
  refine ⟨⟨tn.openE.map tn.dimOf, fun idx => ([ex 0 * 0]).sum⟩, runCompiled_ok hcomp (by
    simp [Task.execute, Task.loadData, Dict.keys, hs0, loadCells,
      Task.runAll, Task.getItem, Task.prepare, runCmds, setCells, Task.run, Task.sub, Task.merge, sumArrs, Dict.set,
      zeroArr, List.range_succ]
    exact ⟨rfl, rfl⟩), rfl, by simp⟩

theorem sumOver_empty {E : Type} [DecidableEq E] {dom : E → Finset Nat} {l : List E} {e : E} (he : e ∈ l) (h : dom e = ∅)
    (f : (E → Nat) → R) (a : E → Nat) : sumOver dom l f a = 0 := by
  induction l generalizing a with
  | nil => simp at he
  | cons x l ih =>
    rw [sumOver_cons]
    rcases List.mem_cons.1 he with rfl | he
    · rw [h]; rfl
    · exact Finset.sum_eq_zero fun _ _ => ih he _

theorem value_empty [Star R] (hc : tn.Consistent) {e : Nm} {er : EdgeRec} (he : tn.edges.get? e = some er) (hf : er.fix = some [])
    (hu : tn.Attached e ∨ e ∈ tn.openE) (idx : List Nat) : tn.value val idx = 0 := by
  refine sumOver_empty ((TN.mem_usedEdges_factors hc.nodes_nodup val).2 hu) ?_ _ _
  unfold TN.dom EdgeRec.dom
  rw [he]
  dsimp only
  rw [hf]
  rfl

end

/-! ## The default order is valid -/

theorem defaultSteps_valid {ns : List Nm} {k : Nm} {i : Nat} (hn : (k :: ns).Nodup)
    (h2 : ∀ j, Nm.pair (.str "#") (.int j) ∉ ns) (hne : ns ≠ []) :
    ValidOrder (k :: ns) (defaultSteps k i ns) (.str "#") ∧ Pairwise2 (defaultSteps k i ns) := by
  induction ns generalizing k i with
  | nil => exact absurd rfl hne
  | cons n ns ih =>
    cases ns with
    | nil =>
      rw [defaultSteps]
      exact ⟨.step (xs := [n, k]) (rest := []) (List.Perm.swap _ _ _) (by simp) (by simp) (.done _),
        by intro s hs; rw [List.mem_singleton] at hs; subst hs; rfl⟩
    | cons m ns =>
      rw [defaultSteps]
      rw [List.nodup_cons, List.nodup_cons] at hn
      obtain ⟨h3, h4⟩ := ih (k := Nm.pair (.str "#") (.int i)) (i := i + 1)
        (List.nodup_cons.2 ⟨fun hc => h2 i (List.mem_cons_of_mem _ hc), hn.2.2⟩)
        (fun j hc => h2 j (List.mem_cons_of_mem _ hc)) (by simp)
      refine ⟨.step (xs := [n, k]) (rest := m :: ns) (List.Perm.swap _ _ _) (by simp)
        (fun hc => h2 i (List.mem_cons_of_mem _ hc)) h3, ?_⟩
      intro s hs
      rcases List.mem_cons.1 hs with rfl | hs
      · rfl
      · exact h4 s hs

theorem defaultOrder_ok {τ : Type} {tn : TN τ} (hc : tn.Consistent) {srt : List Nm → List Nm} (hsrt : ∀ l, (srt l).Perm l)
    (_h1 : .str "#" ∉ tn.nodes.keys) (h2 : ∀ j, Nm.pair (.str "#") (.int j) ∉ tn.nodes.keys) :
    defaultOrder (srt tn.nodes.keys) = [] ∨ ∃ last, ValidOrder tn.nodes.keys (defaultOrder (srt tn.nodes.keys)) last ∧
      Pairwise2 (defaultOrder (srt tn.nodes.keys)) := by
  have hp := hsrt tn.nodes.keys
  cases hl : srt tn.nodes.keys with
  | nil => exact Or.inl rfl
  | cons k ns =>
    rw [hl] at hp
    cases ns with
    | nil => exact Or.inl rfl
    | cons n ns =>
      obtain ⟨h3, h4⟩ := defaultSteps_valid (i := 0) (k := k) (ns := n :: ns) (hp.nodup_iff.2 hc.nodes_nodup)
        (fun j hc => h2 j (hp.subset (List.mem_cons_of_mem _ hc))) (by simp)
      exact Or.inr ⟨_, h3.perm hp, h4⟩

/-! ## Completing a network -/

/-- What `contract` needs besides the fixed edges: a consistent network with known, matching dimensions, tensors
that can be evaluated, and names that `complete_delta` does not use itself. -/
structure CompletableFor [Star R] (val : TVal R → List Nat → R) (contract : TVal R → Option (Arr R)) (tn : TN (TVal R)) :
    Prop where
  cons : tn.Consistent
  dims : tn.DimsKnown
  ready : tn.Ready
  fresh : DeltaFresh tn
  nodeFresh : DeltaNodeFresh tn
  noStar : .str "*" ∉ tn.nodes.keys
  tens : ∀ n r t, tn.nodes.get? n = some r → r.ten = some t → Contracts contract val t
  arr : ∀ a, contract (.ten (some a)) = some a

/-- The tensors at the nodes are read without their loose edges. -/
abbrev Completable [Star R] (contract : TVal R → Option (Arr R)) (tn : TN (TVal R)) : Prop :=
  CompletableFor TVal.val contract tn

instance [Star R] : ArrVal (TVal.tot : TVal R → List Nat → R) := ⟨fun a => by rw [TVal.tot]⟩

/-- Every fixed edge that is not open is fixed to one value in range. -/
def ClosedFixOK {τ : Type} (tn : TN τ) : Prop :=
  ∀ e r l, tn.edges.get? e = some r → e ∉ tn.openE → r.fix = some l → ∃ v d, l = [v] ∧ r.dim = some d ∧ v < d

variable [Star R] {val : TVal R → List Nat → R} [ArrVal val] {contract : TVal R → Option (Arr R)} {tn : TN (TVal R)}

theorem CompletableFor.complete (hC : CompletableFor val contract tn) :
    ∃ tn', tn.completeDelta = (tn', .ok ()) ∧ tn'.Consistent ∧ tn'.DimsKnown ∧ tn'.Ready ∧ tn'.Canonical ∧
      (∀ idx, tn'.value val idx = tn.value val idx) ∧ tn'.shape? = tn.shape? ∧
      (∀ n r t, tn'.nodes.get? n = some r → r.ten = some t → Contracts contract val t) ∧
      (ClosedFixOK tn → FixOK tn') ∧
      (∀ n ∈ tn'.nodes.keys, n ∈ tn.nodes.keys ∨ n = .str "*" ∨ ∃ e k, n = deltaNode e k) ∧
      ∀ e r0, tn.edges.get? e = some r0 → e ∉ tn.openE → ∃ r, tn'.edges.get? e = some r ∧ r.fix = r0.fix := by
  obtain ⟨tn', h⟩ := deltaBody_total hC.cons hC.dims hC.ready hC.fresh hC.nodeFresh
  obtain ⟨h1, h2, h3, h4, h5, h6, h7, h8, h9, h10⟩ := deltaBody_spec hC.cons hC.dims hC.ready hC.fresh h
  refine ⟨tn', ?_, h1, h2, h3, h6, h4 val, h5, ?_, ?_, ?_, h10⟩
  · unfold TN.completeDelta
    rw [if_neg (by rw [Dict.has_iff]; exact hC.noStar)]
    exact h
  · intro n r t hn ht
    rcases h8 n r hn with h | ⟨_, a, ha⟩
    · exact hC.tens n r t h ht
    · rw [ha] at ht
      cases ht
      intro sh hsh
      rw [TVal.shape_def, TVal.shape, Option.some.injEq] at hsh
      have hsh := List.map_injective_iff.2 (Option.some_injective _) hsh
      exact ⟨a, hC.arr a, hsh, fun idx _ => by rw [ArrVal.arr (val := val)]⟩
  · intro hF e r l he hl
    rcases h7 e r he with h | ⟨r0, hr0, hf, hd⟩
    · rw [h] at hl; cases hl
    · have hno : e ∉ tn.openE := fun hc => by
        rw [h6.unfixed e (h9 e hc) r he] at hl; cases hl
      obtain ⟨v, d, hv, hdm, hlt⟩ := hF e r0 l hr0 hno (by rw [← hf]; exact hl)
      exact ⟨v, d, hv, hd d hdm, hlt⟩
  · intro n hn
    obtain ⟨r, hr⟩ := Dict.exists_get? hn
    rcases h8 n r hr with h | ⟨h, _⟩
    · exact Or.inl (Dict.mem_keys_of_get? h)
    · exact Or.inr h

end Verif
