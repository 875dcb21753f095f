import Verif.Model.Circuit
/-!
# Model of `Converter.convert_pure` on circuits (acqdp/circuit/converter.py)

The class is modelled for an arbitrary type `α` of operations and an arbitrary type `τ` of tensor-valued objects.
-/

namespace Verif

/-- What the conversion of a circuit looks at in its operations: `shape` (circuit.py:190-195 and subclasses), `is_pure`
(circuit.py:272-285, :979-989, :1144-1149), membership in `CompState` (`(true, k)`) or `CompMeas` (`(false, k)`)
(circuit.py:660, :678; operations define no `__eq__`, so `in` compares identities) and `tensor_pure`
(circuit.py:123-135). -/
structure OpsIface (α τ : Type) where
  shape : Circ.ShapeFn α
  pure : α → Except Err Bool
  basis : α → Option (Bool × Nat)
  tensor : α → Except Err τ

/-- circuit.py:116-117: the string matches `^[ibc]`. -/
def Letter.startsIn : List Letter → Bool
  | .i :: _ => true
  | .b :: _ => true
  | .c :: _ => true
  | _ => false

/-- circuit.py:120-121: the string matches `.*[odc]$`. -/
def Letter.endsOut (l : List Letter) : Bool :=
  match l.getLast? with
  | some .o => true
  | some .d => true
  | some .c => true
  | _ => false

/-- circuit.py:110-113: `_indices_with_property(pattern)[0]`. -/
def indicesWith (P : List Letter → Bool) (s : List (List Letter)) : List Nat :=
  (s.zipIdx.filter fun p => P p.1).map Prod.snd

namespace Circ

variable {α τ : Type}

/-- circuit.py:978-989: `Circuit.is_pure`. -/
def isPure (I : OpsIface α τ) (c : Circ α) : Except Err Bool :=
  match c.isValid I.shape with
  | .error e => .error e
  | .ok false => .ok false
  | .ok true =>
    match c.mapM fun p => I.pure p.2.op with
    | .error e => .error e
    | .ok l => .ok (l.all id)

/-- converter.py:76-80: the local variables. -/
structure Conv (τ : Type) where
  tn : TN τ := {}
  dic : Dict Int Nm := []
  dicIn : Dict Int Nm := []
  dicOut : Dict Int Nm := []
  all : List Nm := []

/-- converter.py:90, :98: the edge `(time, idx, q)`. -/
def wireName (t : Int) (idx : Nat) (q : Int) : Nm := .triple (.int t) (.int idx) (.int q)

/-- converter.py:87-95: the loop over the output qubits; the list `out_edges`. -/
def convOuts (t : Int) (idx : Nat) (qs : List Int) : List Nat → Conv τ → Except Err (List Nm × Conv τ)
  | [], s => .ok ([], s)
  | i :: is, s =>
    match qs[i]? with
    | none => .error .index
    | some q =>
      match s.dic.get? q with
      | none =>
        match convOuts t idx qs is { s with dicOut := s.dicOut.set q (wireName (t + 1) idx q) } with
        | .error e => .error e
        | .ok (es, s') => .ok (wireName (t + 1) idx q :: es, s')
      | some e =>
        if s.dicIn.has q then
          match convOuts t idx qs is { s with dic := s.dic.del q, dicIn := s.dicIn.del q } with
          | .error e => .error e
          | .ok (es, s') => .ok (e :: es, s')
        else .error .key

/-- converter.py:96-100: the loop over the input qubits; the list `in_edges`. -/
def convIns (t : Int) (idx : Nat) (qs : List Int) : List Nat → Conv τ → Except Err (List Nm × Conv τ)
  | [], s => .ok ([], s)
  | i :: is, s =>
    match qs[i]? with
    | none => .error .index
    | some q =>
      match convIns t idx qs is { s with dic := s.dic.set q (wireName t idx q), dicIn := s.dicIn.set q (wireName t idx q) } with
      | .error e => .error e
      | .ok (es, s') => .ok (wireName t idx q :: es, s')

/-- converter.py:101-104: new edges get dimension 2. -/
def convEdges : List Nm → Conv τ → Except Err (Conv τ)
  | [], s => .ok s
  | e :: es, s =>
    if e ∈ s.all then convEdges es s
    else
      match s.tn.addEdge (some e) (some 2) with
      | (_, .error er) => .error er
      | (tn', .ok _) => convEdges es { s with tn := tn', all := s.all ++ [e] }

/-- converter.py:105-110: basis states and measurements fix an edge, other operations become a node. -/
def convPlace [HasShape τ] (I : OpsIface α τ) (gate : Nm) (op : α) (outs ins : List Nm) (tn : TN τ) : Except Err (TN τ) :=
  match I.basis op with
  | some (isState, k) =>
    match (if isState then outs else ins).head? with
    | none => .error .index
    | some e =>
      match tn.fixEdge e [k] with
      | (tn', .ok ()) => .ok tn'
      | (_, .error er) => .error er
  | none =>
    match I.tensor op with
    | .error er => .error er
    | .ok t =>
      match tn.addNode (some gate) gate (some (outs ++ ins)) t false with
      | (tn', .ok _) => .ok tn'
      | (_, .error er) => .error er

/-- converter.py:83-110: the body of the loop over the gates. -/
def convGate [HasShape τ] (I : OpsIface α τ) (t : Int) (idx : Nat) (gate : Nm) (r : OpRec α) (s : Conv τ) :
    Except Err (Conv τ) :=
  match I.shape r.op with
  | .error e => .error e
  | .ok sh =>
    match convOuts t idx r.qubits (indicesWith Letter.endsOut sh) s with
    | .error e => .error e
    | .ok (outs, s1) =>
      match convIns t idx r.qubits (indicesWith Letter.startsIn sh) s1 with
      | .error e => .error e
      | .ok (ins, s2) =>
        match convEdges (outs ++ ins) s2 with
        | .error e => .error e
        | .ok s3 =>
          match convPlace I gate r.op outs ins s3.tn with
          | .error e => .error e
          | .ok tn' => .ok { s3 with tn := tn' }

/-- converter.py:81-84: the gates in the order in which they are visited, with time step and position. -/
def visit (c : Circ α) : List (Int × Nat × Nm × OpRec α) :=
  c.byTime.reverse.flatMap fun p => p.2.zipIdx.map fun g => (p.1, g.2, g.1)

/-- converter.py:81-110: both loops. -/
def convLoop [HasShape τ] (I : OpsIface α τ) : List (Int × Nat × Nm × OpRec α) → Conv τ → Except Err (Conv τ)
  | [], s => .ok s
  | (t, idx, gate, r) :: gs, s =>
    match convGate I t idx gate r s with
    | .error e => .error e
    | .ok s' => convLoop I gs s'

/-- converter.py:111-112: `[d[i] for i in sorted(d)]`. -/
def sortedVals (d : Dict Int Nm) : List Nm := (d.keys.insertionSort (· ≤ ·)).filterMap d.get?

/-- converter.py:30-31, :68-113: `convert_pure` of a circuit. -/
def convertPure [HasShape τ] (I : OpsIface α τ) (c : Circ α) : Except Err (TN τ) :=
  match c.isPure I with
  | .error e => .error e
  | .ok false => .error .value
  | .ok true =>
    match convLoop I c.visit {} with
    | .error e => .error e
    | .ok s => .ok { s.tn with openE := sortedVals s.dicOut ++ sortedVals s.dicIn }

end Circ

end Verif
