import Verif.Model.Task
import Verif.Model.Delta
/-!
# Model of `Compiler` (acqdp/tensor_network/compiler.py) without order patching (`do_patch=False`)

The network given to `compile` has been expanded and completed (`_expand_and_delta`), so `expand` in
`_generate_template` has nothing to do.
-/

namespace Verif

variable {R : Type} [CommSemiring R] {L : Type} [AddCommMonoid L] {τ : Type}

/-- One pairwise contraction step of a `ContractionScheme`: operand names and the name of the result
(contraction.py:40-60). -/
abbrev OrderStep := List Nm × Nm

/-- compiler.py:142-154: the fixed and sliced edges with their values and the initial content of their cell;
inner `none`: some edge is fixed to no value. -/
def edgeFix (split : List Nm) : List (Nm × EdgeRec) → Except Err (Option (List (Nm × List Nat × Nat)))
  | [] => .ok (some [])
  | (e, r) :: es =>
    if e ∈ split then
      match r.dim with
      | none => .error .type
      | some d =>
        match edgeFix split es with
        | .ok (some l) => .ok (some ((e, List.range d, 0) :: l))
        | o => o
    else
      match r.fix with
      | none => edgeFix split es
      | some [] => .ok none
      | some (v :: vs) =>
        match edgeFix split es with
        | .ok (some l) => .ok (some ((e, v :: vs, v) :: l))
        | o => o

/-- compiler.py:131-134: positions and cells of the legs of a node that are fixed. -/
def legPins (cell : Nm → Option Nat) (legs : List Nm) : List (Nat × Nat) :=
  legs.zipIdx.filterMap fun p => (cell p.1).map fun c => (p.2, c)

/-- compiler.py:128-138: a fix command for every node with a fixed leg; `ref` is `data_ref`, `nx` the next
free cell. -/
def genFix (cell : Nm → Option Nat) :
    List (Nm × List Nm) → Dict Nm Nat → Nat → Option (List Cmd × Dict Nm Nat × Nat)
  | [], ref, nx => some ([], ref, nx)
  | (n, legs) :: ns, ref, nx =>
    if (legPins cell legs).isEmpty then genFix cell ns ref nx
    else
      match ref.get? n with
      | none => none
      | some c =>
        match genFix cell ns (ref.set n nx) (nx + 1) with
        | none => none
        | some (cmds, ref', nx') =>
          some (.f c nx ((legPins cell legs).map Prod.fst) ((legPins cell legs).map Prod.snd) :: cmds, ref', nx')

/-- compiler.py:139: the dictionary handed to the task; cells are numbered in order from `base`. -/
def fixEntries (base : Nat) (l : List (Nm × List Nat × Nat)) : Dict (Nm × List Nat) Nat :=
  l.zipIdx.map fun p => ((p.1.1, p.1.2.1), base + p.2)

/-- compiler.py:132-134: the cell of an edge in the dictionary. -/
def cellOf (base : Nat) (l : List (Nm × List Nat × Nat)) (e : Nm) : Option Nat :=
  Dict.get? (l.zipIdx.map fun p => (p.1.1, base + p.2)) e

/-- Initial contents of the fix cells, compiler.py:147, 153. -/
def initFix (l : List (Nm × List Nat × Nat)) : Nat → Nat := fun i => ((l.map fun p => p.2.2)[i]?).getD 0

namespace TN

/-- compiler.py:66-69: closed edges without nodes are removed. -/
def dropDangling (tn : TN τ) : TN τ :=
  { tn with edges := tn.edges.filterKeys fun e => !(tn.adjOfEdge e).isEmpty || tn.openE.contains e }

/-- Node names and legs in order. -/
def nodeLegs (tn : TN τ) : List (Nm × List Nm) := tn.nodes.map fun p => (p.1, p.2.legs)

/-- compiler.py:145-146: `fix_to` of the sliced edges is set to their whole range. -/
def presetSlices (tn : TN τ) (split : List Nm) : TN τ :=
  { tn with edges := tn.edges.map fun p =>
      if p.1 ∈ split then (p.1, { p.2 with fix := some (List.range (p.2.dim.getD 0)) }) else p }

/-- tensor_network.py:725-737: `subscripts` (symbols are edge names): the unfixed legs of every node. -/
def subs (tn : TN τ) : List (List Nm) :=
  tn.nodes.map fun p => p.2.legs.filter fun e => match tn.edges.get? e with | some r => r.fix.isNone | none => false

/-- tensor_network.py:736: the output subscripts. -/
def subsOut (tn : TN τ) : List Nm :=
  tn.openE.filter fun e => match tn.edges.get? e with | some r => r.fix.isNone | none => false

/-- The open edges are distinct, attached and unfixed, and there is a node: then
`_generate_template_delta` (compiler.py:156-183) has nothing to do. -/
def canonicalB (tn : TN τ) : Bool :=
  decide tn.openE.Nodup && !tn.nodes.isEmpty &&
  tn.openE.all fun e => !(tn.adjOfEdge e).isEmpty && match tn.edges.get? e with | some r => r.fix.isNone | none => false

end TN

/-- compiler.py:100-107: the path of positions for an order of names. -/
def pathOf : List Nm → List OrderStep → Option (List (Nat × Nat))
  | _, [] => some []
  | ns, (x :: y :: _, z) :: o =>
    if x ∈ ns ∧ y ∈ ns ∧ y ∈ ns.erase x then
      (pathOf ((ns.erase x).erase y ++ [z]) o).map fun p => (ns.idxOf x, ns.idxOf y) :: p
    else none
  | _, _ => none

/-- compiler.py:90-95: closing, pinning and removing the sliced edges. -/
def closeSlices (tn : TN τ) (split : List Nm) : Res τ Unit :=
  match forLoop (fun t e => TN.fixEdge t e [0]) split { tn with openE := tn.openE.filter (· ∉ split) } with
  | (tn', .ok ()) => (tn'.fixAll, .ok ())
  | (tn', .error er) => (tn', .error er)

/-- compiler.py:97-111: the final contraction command. -/
def finalCmd (tn : TN τ) (order : List OrderStep) (ref : Dict Nm Nat) (nx : Nat) : Option Cmd :=
  match (tn.nodes.keys).mapM ref.get? with
  | none => none
  | some lhs =>
    match order with
    | [] => some (.c lhs nx tn.subs tn.subsOut none)
    | _ :: _ => (pathOf tn.nodes.keys order).map fun p => .c lhs nx tn.subs tn.subsOut (some p)

/-- compiler.py:58-120: `_generate_template` for the cells `0, 1, ...` of the nodes.  Returns the task and the
contents of the fix cells.  Simplification: networks on which `_generate_template_delta` would add nodes are
rejected. -/
def genTemplate (tn : TN τ) (order : List OrderStep) (split : List Nm) (shape : List Nat) :
    Except Err (Task R × (Nat → Nat)) :=
  let inputs : Dict Nm Nat := tn.nodes.keys.zipIdx
  let n := tn.nodes.length
  let tnc := (TN.fixAll { tn with openE := tn.openE ++ split }).dropDangling
  match edgeFix [] tn.edges with
  | .error e => .error e
  | .ok none => .ok ({ output := n }, fun _ => 0)
  | .ok (some l1) =>
    match genFix (cellOf 0 l1) tn.nodeLegs inputs n with
    | none => .error .key
    | some (cmds1, ref1, nx1) =>
      match edgeFix split tnc.edges with
      | .error e => .error e
      | .ok none => .error .type
      | .ok (some l2) =>
        match genFix (cellOf l1.length l2) tnc.nodeLegs ref1 nx1 with
        | none => .error .key
        | some (cmds2, ref2, nx2) =>
          match closeSlices (tnc.presetSlices split) split with
          | (_, .error e) => .error e
          | (tnf, .ok ()) =>
            if tnf.canonicalB then
              match finalCmd tnf order ref2 nx2 with
              | none => .error .value
              | some cmd =>
                let fd := (fixEntries l1.length l2).foldl (fun d p => d.set p.1 p.2) (fixEntries 0 l1)
                .ok ({ cmds := cmds1 ++ cmds2 ++ [cmd]
                       fixDict := fd
                       inputs := inputs
                       output := nx2
                       shape := shape
                       openE := some tn.openE
                       subOut := tnf.openE
                       cnt := cmds1.length
                       length := fixLength fd
                       pre := if cmds1.length > 0 then some false else none }, initFix (l1 ++ l2))
            else .error .runtime

/-- compiler.py:36-56: `compile` of an expanded and completed network; `t` is the width of the scheme,
`contract` evaluates the tensors at the nodes. -/
def compile (contract : τ → Option (Arr R)) (memory : Nat) (tn : TN τ) (t : Nat) (order : List OrderStep)
    (split : List Nm) : Except Err (Task R × Heap L R) :=
  if t * 3 * 2 ^ 4 > memory * 2 ^ 30 then .error .runtime
  else
    match tn.openE.mapM fun e => (tn.edges.get? e).bind EdgeRec.dim with
    | none => .error .type
    | some shape =>
      match genTemplate (R := R) tn order split shape with
      | .error e => .error e
      | .ok (task, fix) =>
        let h : Heap L R := ⟨fun c => if task.cmds = [] ∧ c = task.output then some (0, zeroArr shape) else none, fix⟩
        match tn.nodes.mapM fun p => (p.2.ten.bind contract).map fun a => (p.1, a) with
        | none => .error .value
        | some data =>
          match (task.setData data).updateFix tn h with
          | none => .error .key
          | some (task', h') => .ok (task', h')

end Verif
