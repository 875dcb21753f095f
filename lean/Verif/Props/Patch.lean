import Verif.Lemmas.PatchOrder
import Verif.Props.Contract
import Verif.Props.Slicer
/-!
# C59: compiling with `do_patch=True` keeps the result
-/

set_option linter.unusedSectionVars false

namespace Verif

variable {R : Type} [CommSemiring R] [Star R] {L : Type} [AddCommMonoid L] {contract : TVal R → Option (Arr R)}
  {tn tn' : TN (TVal R)} {srt : List Nm → List Nm} {E : Engine L R} {ex : L → R} {memory thres : Nat}
  {perm : List Nm → List Nm} {patch : TN (TVal R) → List OrderStep → Option (List OrderStep)} {p : Plan}

/-- C59: with `do_patch=True` the steps on small tensors are done ahead of the slices, each by a command of its own, and
the others may be replaced by those of any valid order; the result is still the Einstein sum, and the same array as
without patching, for every threshold and every iteration order of the sets involved.  Partial: as
`c01_contract_partial` and `c03_slicing_partial`; the last tensor must be called `'#'`, no name may be given twice, and
if an edge is fixed or sliced then all tensors must have one and the same dimension on all legs (see the
`c59_..._violated` theorems). -/
theorem c59_patch_partial (hE : E.Sound ex) (hsrt : ∀ l, (srt l).Perm l) (hperm : ∀ l, (perm l).Perm l)
    (hpatch : PatchSound patch) (hC : Completable contract tn) (hF : ClosedFixOK tn)
    (hd : tn.completeDelta = (tn', .ok ())) (hsl : SliceOK tn' p.slices)
    (hev : (∃ d, tn'.Even d) ∨ NoFix tn' ∧ p.slices = []) (hv : ValidOrder tn'.nodes.keys p.order (.str "#"))
    (hsa : SingleAssignment tn'.nodes.keys p.order) (h2 : Pairwise2 p.order)
    (hmem : p.width * 3 * 2 ^ 4 ≤ memory * 2 ^ 30) :
    ∃ r r', tn.compileExecPatch perm thres patch contract memory srt E ex p = .ok r ∧ Represents TVal.val tn r ∧
      tn.compileExec contract memory srt E ex p = .ok r' ∧ SameArr r r' := by
  obtain ⟨tn2, h1, k2, _, k4, k5, k6, k7, k8, k9, _⟩ := hC.complete
  rw [hd, Prod.mk.injEq] at h1
  obtain ⟨rfl, _⟩ := h1
  have hR : Runnable tn' p.slices := ⟨k2, k5, k4, k9 hF, hsl⟩
  obtain ⟨T, h, m1, m2, m3, _⟩ := compilePatch_armed L (thres := thres) hperm hpatch hR hev hv hsa h2 hmem k8
  obtain ⟨h', r, m4, _, hv1, hv2⟩ := m2.execute_all hR hE hsrt (by rw [m3])
  have hrep : Represents TVal.val tn r := ⟨by rw [← k7]; exact hv1, fun idx hi => by rw [hv2 idx hi, k6]⟩
  obtain ⟨r', n1, n2⟩ := compileExec_spec hE hsrt hC hF hd ⟨Or.inr ⟨_, hv, h2⟩, hmem⟩ hsl
  refine ⟨r, r', ?_, hrep, n1, hrep.same n2⟩
  unfold TN.compileExecPatch
  rw [hd]
  exact runCompiled_ok m1 m4

/-- C59, the commands: with `do_patch=True` a task still is one of the network: its sub-tasks are those of the slices,
and it can be run, saved, given other data and other fixed values like every other (`Armed`). -/
theorem c59_task_partial {τ : Type} [NetTensor τ] (L : Type) [AddCommMonoid L] {tn : TN τ} {contract : τ → Option (Arr R)}
    {val : τ → List Nat → R} {patch : TN τ → List OrderStep → Option (List OrderStep)}
    (hperm : ∀ l, (perm l).Perm l) (hpatch : PatchSound patch) (hR : Runnable tn p.slices)
    (hev : (∃ d, tn.Even d) ∨ NoFix tn ∧ p.slices = [])
    (hv : ValidOrder tn.nodes.keys p.order (.str "#")) (hsa : SingleAssignment tn.nodes.keys p.order) (h2 : Pairwise2 p.order)
    (hmem : p.width * 3 * 2 ^ 4 ≤ memory * 2 ^ 30)
    (hcon : ∀ n r t, tn.nodes.get? n = some r → r.ten = some t → Contracts contract val t) :
    ∃ (T : Task R) (h : Heap L R), compilePatch perm thres patch contract memory tn p = .ok (T, h) ∧
      Armed val tn p.slices T h ∧ T.data.keys = tn.nodes.keys ∧ T.pre = some false :=
  compilePatch_armed L hperm hpatch hR hev hv hsa h2 hmem hcon

/-! ## Concrete cases -/

/-- No search for better orders. -/
def keepOrder {τ : Type} : TN τ → List OrderStep → Option (List OrderStep) := fun _ o => some o

theorem keepOrder_sound {τ : Type} : PatchSound (keepOrder (τ := τ)) :=
  fun _ o h1 h2 _ _ => ⟨o, .str "#", rfl, h1, h2⟩

/-- A network of four matrices in a ring, with one open leg, one fixed and one sliced edge. -/
def ringOps : List (Op (TVal Nat)) :=
  [.addNode (some (.str "a")) (.str "a") (some [.str "i", .str "j"]) (arrVal [2, 2] fun i => i.sum + 1) false,
   .addNode (some (.str "b")) (.str "b") (some [.str "j", .str "k"]) (arrVal [2, 2] fun i => i.sum) false,
   .addNode (some (.str "c")) (.str "c") (some [.str "k", .str "l"]) (arrVal [2, 2] fun i => i.sum + 2) false,
   .addNode (some (.str "d")) (.str "d") (some [.str "l", .str "i"]) (arrVal [2, 2] fun i => 2 * i.sum + 1) false,
   .openEdge (.str "i") none, .fixEdge (.str "l") [1] false]

/-- Running a scheme with patching and the plain engine. -/
def patchRun (thres : Nat) (tn : TN (TVal Nat)) (p : Plan) : Except Err (Arr Nat) :=
  tn.compileExecPatch id thres keepOrder arrContract 16 id plainEngine (fun _ => 1) p

theorem evenOf_B {τ : Type} [HasShape τ] {tn : TN τ} {d : Nat}
    (h : (tn.nodes.all fun p => match p.2.ten.bind HasShape.shape with
      | some sh => sh.all fun x => decide (x = some d)
      | none => true) = true) : tn.Even d := by
  intro n r t sh hr ht hsh x hx
  have := List.all_eq_true.1 h _ (Dict.mem_of_get? hr)
  dsimp only at this
  rw [ht] at this
  simp only [Option.bind_some, hsh] at this
  simpa using List.all_eq_true.1 this x hx

theorem ringOps_ok : ∃ tn tn' : TN (TVal Nat), TN.run {} ringOps = some tn ∧ Completable arrContract tn ∧ ClosedFixOK tn ∧
    tn.completeDelta = (tn', .ok ()) ∧ SliceOK tn' [.str "j"] ∧ tn'.Even 2 ∧
    ValidOrder tn'.nodes.keys pairOrder (.str "#") ∧ SingleAssignment tn'.nodes.keys pairOrder := by
  have hc : TN.Consistent _ := c11_consistent_partial (ops := ringOps)
    ⟨trivial, trivial, trivial, trivial, trivial, trivial, trivial⟩ rfl
  refine ⟨_, _, rfl, ⟨hc, TN.dimsKnown_of_B hc rfl, TN.ready_of_readyB rfl, ?_, ?_, by decide,
    tens_of_arraysB rfl, fun _ => rfl⟩, closedFix_of_B rfl, rfl, ⟨?_, ?_, Or.inr ⟨.str "j", by simp, by decide⟩⟩,
    evenOf_B rfl, pairOrder_ok.1, pairOrder_ok.2.1⟩
  · intro e he k hk hcon
    have h3 : deltaEdge e k ∈ [Nm.str "i", .str "j", .str "k", .str "l"] := hcon
    simp [deltaEdge, Nm.pair] at h3
  · intro e he k hcon
    have h3 : deltaNode e k ∈ [Nm.str "a", .str "b", .str "c", .str "d"] := hcon
    simp [deltaNode, Nm.triple] at h3
  · intro e he
    simp only [List.mem_cons, List.not_mem_nil, or_false] at he
    subst he
    exact ⟨2, rfl, by omega⟩
  · intro e he
    simp only [List.mem_cons, List.not_mem_nil, or_false] at he
    subst he
    exact ⟨.str "a", _, rfl, by decide⟩

/-- `c59_patch_partial` applies to the ring, with a fixed and a sliced edge, for every threshold. -/
example (thres : Nat) : ∃ (tn : TN (TVal Nat)) (r r' : Arr Nat), TN.run {} ringOps = some tn ∧
    patchRun thres tn ⟨0, pairOrder, [.str "j"]⟩ = .ok r ∧ plainRun tn ⟨0, pairOrder, [.str "j"]⟩ = .ok r' ∧
    SameArr r r' ∧ Represents TVal.val tn r := by
  obtain ⟨tn, tn', h0, h1, h2, h3, h4, h5, h6, h7⟩ := ringOps_ok
  obtain ⟨r, r', k1, k2, k3, k4⟩ := c59_patch_partial (thres := thres) (perm := id) (patch := keepOrder) (memory := 16)
    (p := ⟨0, pairOrder, [.str "j"]⟩) plainEngine_sound (srt := id) (fun l => List.Perm.refl l) (fun l => List.Perm.refl l)
    keepOrder_sound h1 h2 h3 h4 (Or.inl ⟨2, h5⟩) h6 h7 pairOrder_ok.2.2 (by simp)
  exact ⟨tn, r, r', h0, k1, k3, k4, k2⟩

/-- With threshold 3 one step is really done ahead: the one that gives `y`. -/
example : ∃ (tn : TN (TVal Nat)) (r : Arr Nat), TN.run {} ringOps = some tn ∧
    orderPatch id 3 keepOrder (tn.pruned [.str "j"]) pairOrder [.str "j"] =
      .ok ([([.str "c", .str "d"], .str "y")], [([.str "a", .str "b"], .str "x"), ([.str "y", .str "x"], .str "#")]) ∧
    patchRun 3 tn ⟨0, pairOrder, [.str "j"]⟩ = .ok r ∧ r.get [0] = 78 ∧ r.get [1] = 205 :=
  ⟨_, _, rfl, rfl, rfl, by decide +kernel, by decide +kernel⟩

/-! ## What the code gets wrong -/

/-- A matrix and a vector, without open edges. -/
def unevenOps : List (Op (TVal Nat)) :=
  [.addNode (some (.str "a")) (.str "a") (some [.str "i", .str "j"]) (arrVal [2, 3] fun i => i.sum + 1) false,
   .addNode (some (.str "b")) (.str "b") (some [.str "j"]) (arrVal [3] fun i => i.sum) false]

/-- The only order of two nodes. -/
def abOrder : List OrderStep := [([.str "a", .str "b"], .str "#")]

/-- C59 fails for fixed edges when dimensions differ: `fix()` drops the leg but not the dimension of the tensor, so the
next encapsulation reads the dimension of the fixed leg for that of its neighbour and raises. -/
theorem c59_fixed_violated : ∃ (tn : TN (TVal Nat)) (r : Arr Nat),
    TN.run {} (unevenOps ++ [.fixEdge (.str "i") [1] false]) = some tn ∧ plainRun tn ⟨0, abOrder, []⟩ = .ok r ∧
    r.get [] = 11 ∧ ∀ thres, patchRun thres tn ⟨0, abOrder, []⟩ = .error .assertion :=
  ⟨_, _, rfl, rfl, by decide, fun _ => rfl⟩

/-- C59 fails for sliced edges when dimensions differ and some step is large, for the same reason. -/
theorem c59_sliced_violated : ∃ (tn : TN (TVal Nat)) (r : Arr Nat), TN.run {} unevenOps = some tn ∧
    plainRun tn ⟨0, abOrder, [.str "i"]⟩ = .ok r ∧ r.get [] = 19 ∧
    patchRun 0 tn ⟨0, abOrder, [.str "i"]⟩ = .error .assertion :=
  ⟨_, _, rfl, rfl, by decide, rfl⟩

/-- C59 fails for networks of one node: the empty order has no step called `'#'`, so a `KeyError` is raised. -/
theorem c59_single_violated : ∃ (tn : TN (TVal Nat)) (r : Arr Nat), TN.run {} vecOps = some tn ∧
    plainRun tn ⟨0, [], []⟩ = .ok r ∧ r.get [] = 6 ∧ ∀ thres, patchRun thres tn ⟨0, [], []⟩ = .error .key :=
  ⟨_, _, rfl, rfl, by decide, fun _ => rfl⟩

/-- A valid order that gives a result the name of one of its operands. -/
def reuseOrder : List OrderStep :=
  [([.str "a", .str "b"], .str "a"), ([.str "a", .str "c"], .str "z"), ([.str "z", .str "d"], .str "#")]

/-- C59 fails when a step done ahead names its result like one of its operands: the reference to the operand is
overwritten before it is read, so the command reads the empty cell of its own result. -/
theorem c59_reuse_violated : ∃ (tn : TN (TVal Nat)) (r : Arr Nat), TN.run {} ringOps = some tn ∧
    ValidOrder tn.nodes.keys reuseOrder (.str "#") ∧ plainRun tn ⟨0, reuseOrder, []⟩ = .ok r ∧ r.get [0] = 78 ∧
    patchRun 9 tn ⟨0, reuseOrder, []⟩ = .error .value :=
  ⟨_, _, rfl, validOrder_of_B (by decide), rfl, by decide +kernel, rfl⟩

end Verif
