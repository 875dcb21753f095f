import Verif.Model.Density
/-!
# Model of the operators `*` and `|` of operations, of `Circuit.collapse` and `Circuit.measure`
(acqdp/circuit/circuit.py:59-108, :832-896) and of `add_noise` (acqdp/circuit/noise.py:49-59)

The functions that look at operations of a circuit take `n`, the bound of the nesting depth of these operations, as
`Oper.iface` does.  Edits in place of a circuit are modelled by returning the circuit afterwards.
-/

namespace Verif

namespace Oper

variable {R : Type}

/-- `list(range(a, a + m))` as a list of qubits (circuit.py:73-74, :106, :108). -/
def rangeQubits (a m : Nat) : List Int := (List.range' a m).map fun k : Nat => (k : Int)

/-- circuit.py:59-76: `a * b`. -/
def mulOper (sh : Circ.ShapeFn (Oper R)) (a b : Oper R) : Except Err (Circ (Oper R)) :=
  match sh a with
  | .error e => .error e
  | .ok sa =>
    match Circ.append sh [] a (rangeQubits 0 sa.length) (some 0) with
    | .error e => .error e
    | .ok c =>
      match sh b with
      | .error e => .error e
      | .ok sb => c.append sh b (rangeQubits sa.length sb.length) (some 0)

/-- `c.append(b, list(range(len(b.shape))))` (circuit.py:106, :108). -/
def appendOper (sh : Circ.ShapeFn (Oper R)) (c : Circ (Oper R)) (b : Oper R) : Except Err (Circ (Oper R)) :=
  match sh b with
  | .error e => .error e
  | .ok s => c.append sh b (rangeQubits 0 s.length)

/-- circuit.py:78-108: `a | b`; the operations of circuits are appended one by one. -/
def orOper (sh : Circ.ShapeFn (Oper R)) : Oper R → Oper R → Except Err (Circ (Oper R))
  | .circ a, .circ b => Circ.orCirc sh a b
  | .circ a, b =>
    match Circ.copy sh a with
    | .error e => .error e
    | .ok a' => appendOper sh a' b
  | a, b =>
    match appendOper sh [] a with
    | .error e => .error e
    | .ok c => appendOper sh c b

/-- noise.py:56-57: the loop appending `noise_channel` to `new_op`; the indices are computed before the loop. -/
def noiseLoop (sh : Circ.ShapeFn (Oper R)) (noise : Oper R) : List Nat → Circ (Oper R) → Except Err (Circ (Oper R))
  | [], c => .ok c
  | a :: as, c =>
    match c.append sh noise [(a : Int)] with
    | .error e => .error e
    | .ok c' => noiseLoop sh noise as c'

/-- noise.py:55-57: `new_op`. -/
def noisyOp (sh : Circ.ShapeFn (Oper R)) (noise op : Oper R) : Except Err (Circ (Oper R)) :=
  match orOper sh (.circ []) op with
  | .error e => .error e
  | .ok c =>
    match Circ.shape sh c with
    | .error e => .error e
    | .ok s => noiseLoop sh noise (indicesWith Letter.endsOut s) c

/-- noise.py:51-58: the loop of `add_noise`; `sh` serves the operations inside `new_op`, `sh'` `new_op` itself. -/
def addNoiseLoop (sh sh' : Circ.ShapeFn (Oper R)) (noise : Oper R) : Circ (Oper R) → Circ (Oper R) → Except Err (Circ (Oper R))
  | [], c => .ok c
  | (k, r) :: l, c =>
    match noisyOp sh noise r.op with
    | .error e => .error e
    | .ok d =>
      match c.append sh' (.circ d) r.qubits (some r.time) (some k) with
      | .error e => .error e
      | .ok c' => addNoiseLoop sh sh' noise l c'

/-- noise.py:49-59: `add_noise(circuit, noise_channel)`. -/
def addNoise (ctr : TVal R → Except Err (Arr R)) (n : Nat) (noise : Oper R) (c : Circ (Oper R)) : Except Err (Circ (Oper R)) :=
  addNoiseLoop (iface ctr n).shape (iface ctr (n + 1)).shape noise c []

/-- circuit.py:212-229: `ImmutableOperation(data, shape)` with tensor-valued data; an array that has the right shape is
not changed by `numpy.reshape`. -/
def newImm (data : TVal R) (s : List (List Letter)) : Except Err (Oper R) :=
  if data.shape = some (List.replicate (2 * ((indicesWith Letter.startsI s).length + (indicesWith Letter.endsO s).length)) (some 2)) then
    .ok (.imm data s)
  else .error .value

/-- circuit.py:654-660, :672-678: the arrays `[1, 0]` and `[0, 1]`. -/
def basisArr [Zero R] [One R] (b : Nat) : Arr R := ⟨[2], fun idx => if idx = [b] then 1 else 0⟩

/-- circuit.py:654-660: `CompState[b]`. -/
def compStateRec [Zero R] [One R] (b : Nat) : PureRec R :=
  { data := .ten (some (basisArr b)), shape := [[.o]], mark := some (true, b) }

/-- circuit.py:672-678: `CompMeas[b]`. -/
def compMeasRec [Zero R] [One R] (b : Nat) : PureRec R :=
  { data := .ten (some (basisArr b)), shape := [[.i]], mark := some (false, b) }

/-- circuit.py:660, :697-698. -/
def compState [Zero R] [One R] (b : Nat) : Oper R := .pure (compStateRec b) (some (compMeasRec b))

/-- circuit.py:678, :697-698. -/
def compMeas [Zero R] [One R] (b : Nat) : Oper R := .pure (compMeasRec b) (some (compStateRec b))

/-- circuit.py:615: `TensorNetwork(open_edges=[0, 0], bond_dim=2)` (tensor_network.py:28-42: the edges are added with
the dimension, then made open). -/
def traceNet : TN (TVal R) :=
  let tn := (forLoop (fun tn e => ((tn.addEdge (some e) (some 2)).1, (tn.addEdge (some e) (some 2)).2.map fun _ => ()))
    [Nm.int 0, Nm.int 0] ({} : TN (TVal R))).1
  { tn with openE := tn.openE ++ [.int 0, .int 0] }

/-- circuit.py:615: `Trace`. -/
def traceOp : Oper R := .imm (.ofTN traceNet) [[.i]]

/-- circuit.py:890: `Unitary(0, np.array(x))`. -/
def scalarOp (x : R) : Oper R := .pure { data := .ten (some ⟨[], fun _ => x⟩), shape := [] } none

/-- circuit.py:883-885: the loop that traces out the other outputs; the indices are computed before the loop. -/
def traceLoop (sh : Circ.ShapeFn (Oper R)) (q : Int) : List Nat → Circ (Oper R) → Except Err (Circ (Oper R))
  | [], c => .ok c
  | i :: is, c =>
    if (i : Int) ≠ q then
      match c.append sh traceOp [(i : Int)] with
      | .error e => .error e
      | .ok c' => traceLoop sh q is c'
    else traceLoop sh q is c

/-- circuit.py:881-885: `circuit_copy`. -/
def probCirc [Zero R] [One R] (sh : Circ.ShapeFn (Oper R)) (c : Circ (Oper R)) (q : Int) : Except Err (Circ (Oper R)) :=
  match c.copy sh with
  | .error e => .error e
  | .ok c1 =>
    match c1.append sh (compMeas 1) [q] with
    | .error e => .error e
    | .ok c2 =>
      match Circ.shape sh c2 with
      | .error e => .error e
      | .ok s => traceLoop sh q (indicesWith Letter.endsOut s) c2

/-- circuit.py:881-886: `prob_1`, `re` being `numpy.real`.  An array with axes is no probability: `binomial` then returns
an array, with which the list in :888 cannot be indexed. -/
def prob1 [Zero R] [One R] [Star R] (ctr : TVal R → Except Err (Arr R)) (G : TN.Glue) (k n : Nat) (re : R → R) (c : Circ (Oper R)) (q : Int) :
    Except Err R :=
  match probCirc (iface ctr n).shape c q with
  | .error e => .error e
  | .ok c' =>
    match density ctr G k (n + 1) (.circ c') with
    | .error e => .error e
    | .ok d =>
      match ctr d with
      | .error e => .error e
      | .ok a => if a.shape = [] then .ok (re (a.get [])) else .error .type

/-- circuit.py:889-892: the circuit after the outcome `b`, `x` being `1 / sqrt(prob)`. -/
def postCirc [Zero R] [One R] (sh : Circ.ShapeFn (Oper R)) (c : Circ (Oper R)) (q : Int) (b : Nat) (x : R) (remove : Bool) :
    Except Err (Circ (Oper R)) :=
  match c.copy sh with
  | .error e => .error e
  | .ok c1 =>
    match c1.append sh (compMeas b) [q] with
    | .error e => .error e
    | .ok c2 =>
      match c2.append sh (scalarOp x) [] with
      | .error e => .error e
      | .ok c3 => if remove then .ok c3 else c3.append sh (compState b) [q]

/-- circuit.py:846-858: `collapse`. -/
def collapse [Star R] (ctr : TVal R → Except Err (Arr R)) (G : TN.Glue) (k n : Nat) (c : Circ (Oper R)) : Except Err (Circ (Oper R)) :=
  match Circ.shape (iface ctr n).shape c with
  | .error e => .error e
  | .ok s =>
    if indicesWith Letter.startsIn s ≠ [] then .error .value
    else
      let qs := indicesWith Letter.endsOut s
      let ss := List.replicate qs.length [Letter.o]
      match Circ.isPure (iface ctr n) c with
      | .error e => .error e
      | .ok b =>
        match if b then (iface ctr (n + 1)).tensor (.circ c) else density ctr G k (n + 1) (.circ c) with
        | .error e => .error e
        | .ok t =>
          match ctr t with
          | .error e => .error e
          | .ok a =>
            match if b then newPure (.ten (some a)) ss else newImm (.ten (some a)) ss with
            | .error e => .error e
            | .ok op => Circ.append (iface ctr n).shape [] op (qs.map fun i : Nat => (i : Int))

/-- circuit.py:860-896: `measure`.  `re` is `numpy.real`, `coin` the draw of `numpy.random.binomial`, `isq` is
`1 / numpy.sqrt(·)`. -/
def measure [Zero R] [One R] [Sub R] [Star R] (ctr : TVal R → Except Err (Arr R)) (G : TN.Glue) (k n : Nat) (re isq : R → R)
    (coin : R → Except Err Bool) (c : Circ (Oper R)) (q : Int) (remove coll : Bool) : Except Err (Bool × Circ (Oper R)) :=
  match prob1 ctr G k n re c q with
  | .error e => .error e
  | .ok p =>
    match coin p with
    | .error e => .error e
    | .ok b =>
      match postCirc (iface ctr n).shape c q (if b then 1 else 0) (isq (if b then p else 1 - p)) remove with
      | .error e => .error e
      | .ok c' =>
        if coll then (collapse ctr G k n c').map fun c'' => (b, c'')
        else .ok (b, c')

end Oper

end Verif
