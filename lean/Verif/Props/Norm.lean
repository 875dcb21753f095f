import Verif.Lemmas.Norm
import Verif.Model.Norm
import Verif.Props.Contract
/-!
# C10: log-normalised execution is exact
-/

set_option linter.unusedSectionVars false

namespace Verif

theorem mem_allIdx {sh idx : List Nat} : idx ∈ allIdx sh ↔ InRange sh idx := by
  induction sh generalizing idx with
  | nil =>
    simp only [allIdx, List.mem_singleton]
    constructor
    · rintro rfl; exact List.Forall₂.nil
    · intro h; cases h; rfl
  | cons d sh ih =>
    simp only [allIdx, List.mem_flatMap, List.mem_range, List.mem_map]
    constructor
    · rintro ⟨i, hi, js, hj, rfl⟩
      exact List.Forall₂.cons hi (ih.1 hj)
    · intro h
      cases h with
      | cons h1 h2 => exact ⟨_, h1, _, ih.2 h2, rfl⟩

theorem foldr_max_ge {l : List ℝ} {x : ℝ} (h : x ∈ l) : x ≤ l.foldr max 0 := by
  induction l with
  | nil => simp at h
  | cons y l ih =>
    rw [List.foldr_cons]
    rcases List.mem_cons.1 h with rfl | h
    · exact le_max_left _ _
    · exact le_trans (ih h) (le_max_right _ _)

theorem maxNorm_zero {a : Arr ℂ} (h : maxNorm a = 0) {idx : List Nat} (hi : InRange a.shape idx) : a.get idx = 0 := by
  have h1 := foldr_max_ge (l := (allIdx a.shape).map fun i => (a.get i).re ^ 2 + (a.get i).im ^ 2)
    (List.mem_map.2 ⟨idx, mem_allIdx.2 hi, rfl⟩)
  have h2 : ((allIdx a.shape).map fun i => (a.get i).re ^ 2 + (a.get i).im ^ 2).foldr max 0 ≤ 0 :=
    Real.sqrt_eq_zero'.1 h
  have h3 : (a.get idx).re ^ 2 + (a.get idx).im ^ 2 ≤ 0 := le_trans h1 h2
  have h4 : (a.get idx).re = 0 := by nlinarith [sq_nonneg (a.get idx).re, sq_nonneg (a.get idx).im]
  have h5 : (a.get idx).im = 0 := by nlinarith [sq_nonneg (a.get idx).re, sq_nonneg (a.get idx).im]
  exact Complex.ext h4 h5

theorem maxNorm_nonneg (a : Arr ℂ) : 0 ≤ maxNorm a := Real.sqrt_nonneg _

theorem normC_some {a : Arr ℂ} {l : ℝ} {b : Arr ℂ} (h : normC a = some (l, b)) :
    b.shape = a.shape ∧ ∀ idx, expC l * b.get idx = a.get idx := by
  unfold normC at h
  split at h
  · cases h
  · next hn =>
    rw [Option.some.injEq, Prod.mk.injEq] at h
    obtain ⟨rfl, rfl⟩ := h
    refine ⟨rfl, fun idx => ?_⟩
    unfold expC
    rw [Real.exp_log (lt_of_le_of_ne (maxNorm_nonneg a) (Ne.symm hn))]
    have : (maxNorm a : ℂ) ≠ 0 := Complex.ofReal_ne_zero.2 hn
    dsimp only
    field_simp

theorem normC_none {a : Arr ℂ} (h : normC a = none) : maxNorm a = 0 := by
  unfold normC at h
  split at h
  · assumption
  · cases h

theorem normEngine_norm (ord : List Nm → List Nm) : NormSound (normEngine ord) expC := by
  refine ⟨by simp [expC], fun s t => by simp [expC, Real.exp_add], ?_, ?_⟩
  · intro f a l a' h1 h2
    cases h1
    exact ⟨(normC_some h2).1, fun idx _ => (normC_some h2).2 idx⟩
  · intro f a h1 h2 idx hi
    cases h1
    exact maxNorm_zero (normC_none h2) hi

theorem flatEngine_norm (ord : List Nm → List Nm) : NormSound (flatEngine ord) expC :=
  ⟨by simp [expC], fun s t => by simp [expC, Real.exp_add], fun _ _ _ _ h => by simp [flatEngine] at h,
    fun _ _ h => by simp [flatEngine] at h⟩

theorem NormSound.sound {R : Type} [CommSemiring R] {L : Type} [AddCommMonoid L] {E : Engine L R} {ex : L → R}
    (h : NormSound E ex) (ho : ∀ l, (E.ord l).Perm l) : E.Sound ex :=
  ⟨ho, h.ex_zero, h.nrm_some, h.nrm_none⟩

/-- C10 for a command list: from any memory content, running the commands with normalisation fails exactly when
running them without fails; otherwise every cell holds the same array once its log-norm is multiplied back. -/
theorem c10_commands (ord : List Nm → List Nm) (cs : List Cmd) (h : Heap ℝ ℂ) :
    (runCmds (normEngine ord) cs h = none ∧ runCmds (flatEngine ord) cs h = none) ∨
    ∃ g g', runCmds (normEngine ord) cs h = some g ∧ runCmds (flatEngine ord) cs h = some g' ∧
      ∀ c, (g.data c = none ∧ g'.data c = none) ∨ ∃ s a s' a', g.data c = some (s, a) ∧ g'.data c = some (s', a') ∧
        a.shape = a'.shape ∧
        ∀ idx, InRange a.shape idx → expC s * a.get idx = expC s' * a'.get idx := by
  rcases runCmds_rel (normEngine_norm ord) (flatEngine_norm ord) rfl cs (HeapRel.rfl' h) with h1 | ⟨g, g', h1, h2, h3⟩
  · exact Or.inl h1
  · refine Or.inr ⟨g, g', h1, h2, fun c => ?_⟩
    have hc := h3.2 c
    cases h4 : g.data c with
    | none =>
      cases h5 : g'.data c with
      | none => exact Or.inl ⟨rfl, rfl⟩
      | some w => rw [h4, h5] at hc; exact hc.elim
    | some v =>
      cases h5 : g'.data c with
      | none => rw [h4, h5] at hc; exact hc.elim
      | some w =>
        rw [h4, h5] at hc
        exact Or.inr ⟨v.1, v.2, w.1, w.2, rfl, rfl, hc.1, hc.2⟩

/-- C10 for `execute`: for every task (any commands, any data, any state, any list of sub-tasks) execution with
`normalize=True` fails exactly when execution without does, and otherwise returns the same array.  `hu`: the
sub-results to be added have one shape (numpy broadcasting of unequal shapes is not modelled). -/
theorem c10_execute (ord : List Nm → List Nm) (srt : List Nm → List Nm) (t : Task ℂ) (lst : Option (List Nat))
    (h : Heap ℝ ℂ)
    (hu : ∀ t1 h1 t2 h2 d, t.loadData srt h = some (t1, h1) →
      t1.runAll srt (flatEngine ord) expC (lst.getD (List.range t1.length)) h1 [] = some (t2, h2, d) → Uniform d) :
    (t.execute srt (flatEngine ord) expC lst h = none ∧ t.execute srt (normEngine ord) expC lst h = none) ∨
    ∃ t1 g g' r r', t.execute srt (flatEngine ord) expC lst h = some (t1, g, r) ∧
      t.execute srt (normEngine ord) expC lst h = some (t1, g', r') ∧ SameArr r r' := by
  unfold Task.execute
  cases hl : t.loadData srt h with
  | none => exact Or.inl ⟨rfl, rfl⟩
  | some p =>
    obtain ⟨t1, h1⟩ := p
    dsimp only
    rcases runAll_rel (flatEngine_norm ord) (normEngine_norm ord) rfl srt (lst.getD (List.range t1.length)) t1
      (HeapRel.rfl' h1) (d := []) (d' := []) List.Forall₂.nil with ⟨h2, h3⟩ | ⟨t2, g, g', d, d', h2, h3, _, h5⟩
    · left; rw [h2, h3]; exact ⟨rfl, rfl⟩
    · rw [h2, h3]
      dsimp only
      rcases merge_rel t2 h5 (hu t1 h1 t2 g d hl h2) with ⟨h6, h7⟩ | ⟨r, r', h6, h7, h8⟩
      · left; rw [h6, h7]; exact ⟨rfl, rfl⟩
      · right; rw [h6, h7]; exact ⟨t2, g, g', r, r', rfl, rfl, h8⟩

/-- C10 for contraction: with and without normalisation the compiled scheme evaluates to the same array. -/
theorem c10_contract {contract : TVal ℂ → Option (Arr ℂ)} {tn tn' : TN (TVal ℂ)} {srt : List Nm → List Nm}
    {memory : Nat} {ord : List Nm → List Nm} (hord : ∀ l, (ord l).Perm l) (hsrt : ∀ l, (srt l).Perm l)
    (hC : Completable contract tn) (hF : ClosedFixOK tn) (hd : tn.completeDelta = (tn', .ok ())) {p : Plan}
    (hS : SchemeOK tn' p.order memory p.width) (hsl : SliceOK tn' p.slices) :
    ∃ r₁ r₂, tn.compileExec contract memory srt (normEngine ord) expC p = .ok r₁ ∧
      tn.compileExec contract memory srt (flatEngine ord) expC p = .ok r₂ ∧ SameArr r₁ r₂ := by
  obtain ⟨r₁, h1, h2⟩ := compileExec_spec ((normEngine_norm ord).sound hord) hsrt hC hF hd hS hsl
  obtain ⟨r₂, h3, h4⟩ := compileExec_spec ((flatEngine_norm ord).sound hord) hsrt hC hF hd hS hsl
  exact ⟨r₁, r₂, h1, h3, h2.same h4⟩

/-- A command list with a genuine contraction and an identically zero intermediate. -/
def normExample : List Cmd :=
  [.c [0, 1] 2 [[.str "a"], [.str "a", .str "b"]] [.str "b"] none, .f 2 3 [0] [0],
   .c [3, 2] 4 [[], [.str "b"]] [.str "b"] none]

def normHeap : Heap ℝ ℂ := ⟨fun c =>
  if c = 0 then some (0, ⟨[2], fun _ => 3⟩) else if c = 1 then some (0, ⟨[2, 2], fun i => if i = [0, 1] then 5 else 0⟩) else none,
  fun _ => 0⟩

/-- The example is not one where both runs fail. -/
example : ∃ g, runCmds (flatEngine id) normExample normHeap = some g := ⟨_, rfl⟩

/-- A task with two sub-tasks (the two rows of a complex matrix). -/
def normTask : Task ℂ where
  cmds := [.f 0 1 [0] [9], .c [1] 2 [[.str "b"]] [.str "b"] none]
  inputs := [(.int 0, 0)]
  data := [(.int 0, ⟨[2, 3], fun i => if i = [0, 1] then 5 else 0⟩)]
  output := 2
  subOut := [.str "b"]
  openE := some [.str "b"]
  shape := [3]
  fixDict := [((.str "a", [0, 1]), 9)]
  length := 2
  cnt := 0
  pre := some false

/-- The hypothesis of `c10_execute` is met, and the execution succeeds; the second sub-result is identically zero. -/
example : (∀ t1 h1 t2 h2 d, normTask.loadData id (⟨fun _ => none, fun _ => 0⟩ : Heap ℝ ℂ) = some (t1, h1) →
      t1.runAll id (flatEngine id) expC ((none : Option (List Nat)).getD (List.range t1.length)) h1 [] =
        some (t2, h2, d) → Uniform d) ∧
    ∃ x, normTask.execute id (flatEngine id) expC none (⟨fun _ => none, fun _ => 0⟩ : Heap ℝ ℂ) = some x := by
  refine ⟨?_, ⟨_, rfl⟩⟩
  intro t1 h1 t2 h2 d e1 e2
  cases (show normTask.loadData id (⟨fun _ => none, fun _ => 0⟩ : Heap ℝ ℂ) = some (_, _) from rfl).symm.trans e1
  cases (show Task.runAll _ _ _ _ _ _ _ = some (_, _, [(0, ⟨[3], _⟩), (1, ⟨[3], _⟩)]) from rfl).symm.trans e2
  intro p hp q hq
  simp only [List.mem_cons, List.not_mem_nil, or_false] at hp hq
  rcases hp with rfl | rfl <;> rcases hq with rfl | rfl <;> rfl

/-- Two complex tensors sharing "b"; "a" is open, "c" closed. -/
def normNet : List (Op (TVal ℂ)) :=
  [.addNode (some (.int 0)) (.int 0) (some [.str "a", .str "b"]) (arrVal [2, 3] fun i => Complex.I * i.sum) false,
   .addNode (some (.int 1)) (.int 1) (some [.str "b", .str "c"]) (arrVal [3, 2] fun i => if i.sum = 1 then 2 else 0) false,
   .openEdge (.str "a") none]

/-- The hypotheses of `c10_contract` are met by `normNet`, with the closed edge "b" sliced. -/
example : ∃ tn tn' : TN (TVal ℂ), TN.run {} normNet = some tn ∧ Completable arrContract tn ∧ ClosedFixOK tn ∧
    tn.completeDelta = (tn', .ok ()) ∧ SchemeOK tn' (defaultOrder tn'.nodes.keys) 16 3 ∧ SliceOK tn' [.str "b"] := by
  have hc : TN.Consistent _ := c11_consistent_partial (ops := normNet) ⟨trivial, trivial, trivial, trivial⟩ rfl
  have hC : Completable arrContract _ := ⟨hc, TN.dimsKnown_of_B hc rfl, TN.ready_of_readyB rfl, by
      intro e he k hk hcon
      have h3 : deltaEdge e k ∈ [Nm.str "a", .str "b", .str "c"] := hcon
      simp [deltaEdge, Nm.pair] at h3, by
      intro e he k hcon
      have h3 : deltaNode e k ∈ [Nm.int 0, .int 1] := hcon
      simp [deltaNode, Nm.triple] at h3, by decide, tens_of_arraysB rfl, fun _ => rfl⟩
  refine ⟨_, _, rfl, hC, closedFix_of_B rfl, rfl, ⟨defaultOrder_ok (srt := id) ?_ (fun l => List.Perm.refl l) ?_ ?_,
    by omega⟩, ⟨?_, ?_, Or.inl (by decide)⟩⟩
  · obtain ⟨tn', hd, hc', _⟩ := hC.complete
    cases hd
    exact hc'
  · intro hcon
    have h3 : Nm.str "#" ∈ [Nm.int 0, .int 1] := hcon
    simp at h3
  · intro j hcon
    have h3 : Nm.pair (.str "#") (.int j) ∈ [Nm.int 0, .int 1] := hcon
    simp [Nm.pair] at h3
  · intro e he
    rw [List.mem_singleton] at he
    subst he
    exact ⟨3, rfl, by omega⟩
  · intro e he
    rw [List.mem_singleton] at he
    subst he
    exact ⟨.int 0, _, rfl, by decide⟩

end Verif
