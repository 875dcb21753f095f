import Verif.Model.Operation
import Verif.Model.Expand
/-!
# Model of `Converter.convert_density` (acqdp/circuit/converter.py:132-190)
-/

namespace Verif

/-- What the conversion of a circuit looks at in its operations: `shape` and `tensor_density` (circuit.py:137-148). -/
structure DensIface (α τ : Type) where
  shape : Circ.ShapeFn α
  dens : α → Except Err τ

namespace Circ

variable {α τ : Type}

/-- converter.py:173, :181, :184: a wire `(time, idx, q)`. -/
structure Wire where
  time : Int
  idx : Nat
  qubit : Int
  deriving DecidableEq, Repr

/-- converter.py:171-172, :176-177, :182-183: the edge `(time, idx, q, tag)`. -/
def Wire.edge (w : Wire) (tag : String) : Nm :=
  .cons (.int w.time) (.cons (.int w.idx) (.cons (.int w.qubit) (.cons (.str tag) .nil)))

/-- converter.py:155-158: the local variables. -/
structure DConv (τ : Type) where
  tn : TN τ := {}
  dic : Dict Int Wire := []
  dicOut : Dict Int Wire := []
  dicIn : Dict Int Wire := []

/-- converter.py:168-178: the loop over the input qubits.  The lists `in_edges_p` and `in_edges_d` have the same entries
up to the tag; the list of these is returned. -/
def densIns (t : Int) (idx : Nat) (qs : List Int) : List Nat → DConv τ → Except Err (List Wire × DConv τ)
  | [], s => .ok ([], s)
  | i :: is, s =>
    match qs[i]? with
    | none => .error .index
    | some q =>
      match s.dic.get? q with
      | none =>
        match densIns t idx qs is { s with dicIn := s.dicIn.set q ⟨t, idx, q⟩ } with
        | .error e => .error e
        | .ok (ws, s') => .ok (⟨t, idx, q⟩ :: ws, s')
      | some w =>
        if s.dicOut.has q then
          match densIns t idx qs is { s with dic := s.dic.del q, dicOut := s.dicOut.del q } with
          | .error e => .error e
          | .ok (ws, s') => .ok (w :: ws, s')
        else .error .key

/-- converter.py:179-184: the loop over the output qubits. -/
def densOuts (t : Int) (idx : Nat) (qs : List Int) : List Nat → DConv τ → Except Err (List Wire × DConv τ)
  | [], s => .ok ([], s)
  | i :: is, s =>
    match qs[i]? with
    | none => .error .index
    | some q =>
      match densOuts t idx qs is
        { s with dic := s.dic.set q ⟨t + 1, idx, q⟩, dicOut := s.dicOut.set q ⟨t + 1, idx, q⟩ } with
      | .error e => .error e
      | .ok (ws, s') => .ok (⟨t + 1, idx, q⟩ :: ws, s')

/-- converter.py:185: the legs of the node of a gate; converter.py:186-189: the open edges. -/
def densLegs (outs ins : List Wire) : List Nm :=
  outs.map (·.edge "p") ++ ins.map (·.edge "p") ++ outs.map (·.edge "d") ++ ins.map (·.edge "d")

/-- converter.py:161-185: the body of the loop over the gates. -/
def densGate [HasShape τ] (I : DensIface α τ) (t : Int) (idx : Nat) (gate : Nm) (r : OpRec α) (s : DConv τ) :
    Except Err (DConv τ) :=
  match I.shape r.op with
  | .error e => .error e
  | .ok sh =>
    match densIns t idx r.qubits (indicesWith Letter.startsIn sh) s with
    | .error e => .error e
    | .ok (ins, s1) =>
      match densOuts t idx r.qubits (indicesWith Letter.endsOut sh) s1 with
      | .error e => .error e
      | .ok (outs, s2) =>
        match I.dens r.op with
        | .error e => .error e
        | .ok d =>
          match s2.tn.addNode (some gate) gate (some (densLegs outs ins)) d false with
          | (_, .error e) => .error e
          | (tn', .ok _) => .ok { s2 with tn := tn' }

/-- converter.py:159-160: the gates in the order in which they are visited, with time step and position. -/
def visitFwd (c : Circ α) : List (Int × Nat × Nm × OpRec α) :=
  c.byTime.flatMap fun p => p.2.zipIdx.map fun g => (p.1, g.2, g.1)

/-- converter.py:159-185: both loops. -/
def densLoop [HasShape τ] (I : DensIface α τ) : List (Int × Nat × Nm × OpRec α) → DConv τ → Except Err (DConv τ)
  | [], s => .ok s
  | (t, idx, gate, r) :: gs, s =>
    match densGate I t idx gate r s with
    | .error e => .error e
    | .ok s' => densLoop I gs s'

/-- converter.py:186-189: `[d[i] for i in sorted(d)]` for one of the dictionaries. -/
def sortedWires (d : Dict Int Wire) : List Wire := (d.keys.insertionSort (· ≤ ·)).filterMap d.get?

/-- converter.py:153-190: `convert_density` of a circuit. -/
def convertDensity [HasShape τ] (I : DensIface α τ) (c : Circ α) : Except Err (TN τ) :=
  match c.isValid I.shape with
  | .error e => .error e
  | .ok false => .error .value
  | .ok true =>
    match densLoop I c.visitFwd {} with
    | .error e => .error e
    | .ok s => .ok { s.tn with openE := densLegs (sortedWires s.dicOut) (sortedWires s.dicIn) }

end Circ

namespace TVal

variable {R : Type}

/-- The methods `expand()` of the classes (tensor_valued.py:198-203, tensor_network.py:594-633) on the results of
`~`.  Such a result is a view only of a view (tensor_valued.py:32-33), and then is returned itself
(tensor_view.py:91-92). -/
def expandVal (G : TN.Glue) (k : Nat) : TVal R → Except Err (TVal R)
  | .net ns es adj op c =>
    match expand G k ⟨ns, es, adj, op, c⟩ with
    | (_, .error e) => .error e
    | (tn, .ok ()) => .ok (.ofTN tn)
  | t => .ok t

/-- converter.py:140-147: the density representation made from `tensor_pure`. -/
def densityPure [Star R] (G : TN.Glue) (k : Nat) (tp : TVal R) : Except Err (TVal R) :=
  match tp.shape with
  | none => .error .type
  | some d =>
    match ({} : TN (TVal R)).addNode (some (.str "TP")) (.str "TP")
      (some ((List.range d.length).map fun i : Nat => Nm.int i)) tp false with
    | (_, .error e) => .error e
    | (tn, .ok _) =>
      match conj tp with
      | .error e => .error e
      | .ok tc =>
        match expandVal G k tc with
        | .error e => .error e
        | .ok te =>
          match tn.addNode (some (.str "~TP")) (.str "~TP")
            (some ((List.range' d.length d.length).map fun i : Nat => Nm.int i)) te false with
          | (_, .error e) => .error e
          | (tn', .ok _) => .ok (.ofTN { tn' with openE := (List.range (2 * d.length)).map fun i : Nat => Nm.int i })

end TVal

namespace Oper

variable {R : Type} [Star R]

/-- converter.py:132-190: `convert_density`; `I` and `dens` serve the operations inside.  `PureOperation` is a base
class of `ControlledOperation` and of `ControlledCircuit` (circuit.py:507, :1012); `SuperPosition` (circuit.py:1104) is
neither an `ImmutableOperation` nor a `Circuit`. -/
def densOf (ctr : TVal R → Except Err (Arr R)) (G : TN.Glue) (k : Nat) (I : OpsIface (Oper R) (TVal R))
    (dens : Oper R → Except Err (TVal R)) : Oper R → Except Err (TVal R)
  | .imm data _ => .ok data
  | .circ c => (Circ.convertDensity ⟨I.shape, dens⟩ c).map .ofTN
  | .sup _ _ => .error .value
  | op =>
    match tensorOf ctr I op with
    | .error e => .error e
    | .ok tp => TVal.densityPure G k tp

/-- The property `tensor_density` (circuit.py:137-148), `n` bounding the nesting depth of operations and `k` that of
networks. -/
def density (ctr : TVal R → Except Err (Arr R)) (G : TN.Glue) (k : Nat) : Nat → Oper R → Except Err (TVal R)
  | 0, _ => .error .runtime
  | n + 1, op => densOf ctr G k (iface ctr n) (density ctr G k n) op

end Oper

end Verif
