import Verif.Model.Compile
import Verif.Model.Orders
import Verif.Model.Ops
/-!
# Model of `Compiler` with order patching (`do_patch=True`; compiler.py:58-120, 200-259)

The order in which `encapsulate` lists the boundary of a group of nodes is the iteration order of a python set
(tensor_network.py:651-675): `perm` lists a set in some order.  The part of `ContractionTree.patch`
(contraction_tree.py:215-262) that searches for a better order of the large steps is a parameter `patch`.
-/

namespace Verif

variable {R : Type} [CommSemiring R] {L : Type} [AddCommMonoid L] {τ : Type} [NetTensor τ]

/-- compiler.py:77-81 with 185-193: the steps done ahead of the slices, up to the one called `'#'`.  Every step is
encapsulated and contracted by a command of its own; `data_ref` is updated before the operands are looked up. -/
def initCmds (perm : List Nm → List Nm) :
    List OrderStep → TN τ → Dict Nm Nat → Nat → Except Err (List Cmd × TN τ × Dict Nm Nat × Nat)
  | [], tn, ref, nx => .ok ([], tn, ref, nx)
  | (xs, z) :: o, tn, ref, nx =>
    if z = .str "#" then .ok ([], tn, ref, nx)
    else
      match tn.subtn xs (perm (tn.boundaryOfNodes xs)), tn.encapsulate xs (perm (tn.boundaryOfNodes xs)) (some z) z with
      | .error e, _ => .error e
      | .ok _, (_, .error e) => .error e
      | .ok stn, (tn', .ok _) =>
        match finalCmd stn [] (ref.set z nx) nx with
        | none => .error .key
        | some cmd =>
          match initCmds perm o tn' (ref.set z nx) (nx + 1) with
          | .error e => .error e
          | .ok (cmds, tn2, ref2, nx2) => .ok (cmd :: cmds, tn2, ref2, nx2)

/-- contraction_tree.py:25-28: the lengths of the index strings of the nodes. -/
def TN.legLens (tn : TN τ) : Dict Nm Nat := tn.nodes.map fun p => (p.1, p.2.legs.length)

/-- contraction_tree.py:29-33, compiler.py:246: encapsulating along an order; gives the network left and the lengths of
the index strings of all tensors. -/
def encAlong (perm : List Nm → List Nm) : List OrderStep → TN τ → Dict Nm Nat → Except Err (TN τ × Dict Nm Nat)
  | [], tn, d => .ok (tn, d)
  | (xs, z) :: o, tn, d =>
    match tn.encapsulate xs (perm (tn.boundaryOfNodes xs)) (some z) z with
    | (_, .error e) => .error e
    | (tn', .ok n) => encAlong perm o tn' (d.set n (((tn'.nodes.get? n).map fun r => r.legs.length).getD 0))

/-- A table of lengths read as a function. -/
def lenOf (d : Dict Nm Nat) (n : Nm) : Nat := (d.get? n).getD 0

/-- compiler.py:225-250: `_reorg_order`.  The graph with the small steps encapsulated is returned too. -/
def reorgPatch (perm : List Nm → List Nm) (thres : Nat) (g : TN τ) (order : List OrderStep) :
    Except Err (TN τ × List OrderStep × List OrderStep) :=
  match encAlong perm order g.fixAll g.fixAll.legLens with
  | .error e => .error e
  | .ok (_, d) =>
    match reorgOrder thres (lenOf d) (lenOf d) g.fixAll.nodes.keys order with
    | none => .error .key
    | some (init, final) =>
      match encAlong perm init g.fixAll g.fixAll.legLens with
      | .error e => .error e
      | .ok (g', _) => .ok (g', init, final)

/-- compiler.py:252-259: `_patch_order`. -/
def patchFinal (perm : List Nm → List Nm) (patch : TN τ → List OrderStep → Option (List OrderStep)) (g : TN τ)
    (order : List OrderStep) : Except Err (List OrderStep) :=
  match encAlong perm order g.fixAll g.fixAll.legLens with
  | .error e => .error e
  | .ok _ =>
    match patch g.fixAll order with
    | none => .error .key
    | some o => .ok o

/-- compiler.py:200-221: `_order_patch` with `do_patch=True`. -/
def orderPatch (perm : List Nm → List Nm) (thres : Nat) (patch : TN τ → List OrderStep → Option (List OrderStep))
    (tn : TN τ) (order : List OrderStep) (split : List Nm) : Except Err (List OrderStep × List OrderStep) :=
  let g := (TN.fixAll { tn with openE := tn.openE ++ split }).dropDangling
  match encAlong perm order g g.legLens with
  | .error e => .error e
  | .ok (_, d) =>
    match treeOrder (lenOf d) g.nodes.keys order with
    | none => .error .key
    | some order' =>
      match reorgPatch perm thres g order' with
      | .error e => .error e
      | .ok (g', init, final) =>
        match closeSlices g' split with
        | (_, .error e) => .error e
        | (g2, .ok ()) =>
          if final.isEmpty then .ok (init, final)
          else
            match patchFinal perm patch g2 final with
            | .error e => .error e
            | .ok final' => .ok (init, final')

/-- compiler.py:72-120: the rest of `_generate_template`, given the steps done ahead and the final order.
Simplification: as for `genTemplate`. -/
def genTemplateWith (perm : List Nm → List Nm) (tn : TN τ) (init final : List OrderStep) (split : List Nm)
    (shape : List Nat) : Except Err (Task R × (Nat → Nat)) :=
  let inputs : Dict Nm Nat := tn.nodes.keys.zipIdx
  let n := tn.nodes.length
  let tnc := (TN.fixAll { tn with openE := tn.openE ++ split }).dropDangling
  match edgeFix [] tn.edges with
  | .error e => .error e
  | .ok none => .ok ({ output := n }, fun _ => 0)
  | .ok (some l1) =>
    match genFix (cellOf 0 l1) tn.nodeLegs inputs n with
    | none => .error .key
    | some (cmds1, ref1, nx1) =>
      match initCmds perm init tnc ref1 nx1 with
      | .error e => .error e
      | .ok (cmdsI, tnI, refI, nxI) =>
        match edgeFix split tnI.edges with
        | .error e => .error e
        | .ok none => .error .type
        | .ok (some l2) =>
          match genFix (cellOf l1.length l2) tnI.nodeLegs refI nxI with
          | none => .error .key
          | some (cmds2, ref2, nx2) =>
            match closeSlices (tnI.presetSlices split) split with
            | (_, .error e) => .error e
            | (tnf, .ok ()) =>
              if tnf.canonicalB then
                match finalCmd tnf final ref2 nx2 with
                | none => .error .value
                | some cmd =>
                  let fd := (fixEntries l1.length l2).foldl (fun d p => d.set p.1 p.2) (fixEntries 0 l1)
                  .ok ({ cmds := (cmds1 ++ cmdsI) ++ cmds2 ++ [cmd]
                         fixDict := fd
                         inputs := inputs
                         output := nx2
                         shape := shape
                         openE := some tn.openE
                         subOut := tnf.openE
                         cnt := (cmds1 ++ cmdsI).length
                         length := fixLength fd
                         pre := if (cmds1 ++ cmdsI).length > 0 then some false else none }, initFix (l1 ++ l2))
              else .error .runtime

/-- compiler.py:58-120: `_generate_template` with `do_patch=True`. -/
def genTemplatePatch (perm : List Nm → List Nm) (thres : Nat) (patch : TN τ → List OrderStep → Option (List OrderStep))
    (tn : TN τ) (order : List OrderStep) (split : List Nm) (shape : List Nat) : Except Err (Task R × (Nat → Nat)) :=
  match orderPatch perm thres patch (TN.fixAll { tn with openE := tn.openE ++ split }).dropDangling order split with
  | .error e => .error e
  | .ok (init, final) => genTemplateWith perm tn init final split shape

/-- compiler.py:36-56: `compile` with a given `_generate_template`. -/
def compileGen (gen : List Nat → Except Err (Task R × (Nat → Nat))) (contract : τ → Option (Arr R)) (memory : Nat)
    (tn : TN τ) (t : Nat) : Except Err (Task R × Heap L R) :=
  if t * 3 * 2 ^ 4 > memory * 2 ^ 30 then .error .runtime
  else
    match tn.openE.mapM fun e => (tn.edges.get? e).bind EdgeRec.dim with
    | none => .error .type
    | some shape =>
      match gen shape with
      | .error e => .error e
      | .ok (task, fix) =>
        let h : Heap L R := ⟨fun c => if task.cmds = [] ∧ c = task.output then some (0, zeroArr shape) else none, fix⟩
        match tn.nodes.mapM fun p => (p.2.ten.bind contract).map fun a => (p.1, a) with
        | none => .error .value
        | some data =>
          match (task.setData data).updateFix tn h with
          | none => .error .key
          | some (task', h') => .ok (task', h')

/-- compiler.py:36-56: `compile` with `do_patch=True`. -/
def compilePatch (perm : List Nm → List Nm) (thres : Nat) (patch : TN τ → List OrderStep → Option (List OrderStep))
    (contract : τ → Option (Arr R)) (memory : Nat) (tn : TN τ) (p : Plan) : Except Err (Task R × Heap L R) :=
  compileGen (genTemplatePatch perm thres patch tn p.order p.slices) contract memory tn p.width

/-- compiler.py:45: `compile(scheme)` completes (a copy of) the network first; then `execute()`
(contractor.py:33-63). -/
def TN.compileExecPatch [Star R] (perm : List Nm → List Nm) (thres : Nat)
    (patch : TN (TVal R) → List OrderStep → Option (List OrderStep)) (contract : TVal R → Option (Arr R)) (memory : Nat)
    (srt : List Nm → List Nm) (E : Engine L R) (ex : L → R) (tn : TN (TVal R)) (p : Plan) : Except Err (Arr R) :=
  match tn.completeDelta with
  | (_, .error e) => .error e
  | (tn', .ok ()) => runCompiled srt E ex (compilePatch perm thres patch contract memory tn' p)

end Verif
