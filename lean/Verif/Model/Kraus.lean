import Verif.Model.Measure
/-!
# Model of operations given by numpy arrays (acqdp/circuit/circuit.py:212-236, :412-424, :538-551) and by Kraus operators
(:238-269)
-/

namespace Verif

/-- The position of an entry of an array with the axes `ds` in memory, in the order of `numpy.reshape` (the last index
runs fastest). -/
def offset : List Nat → List Nat → Nat
  | _ :: ds, i :: is => i * ds.prod + offset ds is
  | _, _ => 0

/-- The index of the entry at position `k`. -/
def unoffset : List Nat → Nat → List Nat
  | [], _ => []
  | _ :: ds, k => k / ds.prod :: unoffset ds (k % ds.prod)

/-- `numpy.reshape(a, shape)`. -/
def Arr.reshape {R : Type} (a : Arr R) (ds : List Nat) : Except Err (Arr R) :=
  if a.shape.prod = ds.prod then .ok ⟨ds, fun idx => a.get (unoffset a.shape (offset ds idx))⟩ else .error .value

namespace Oper

variable {R : Type}

/-- circuit.py:230-236: `ImmutableOperation(data, shape)` with a numpy array. -/
def newImmArr (a : Arr R) (s : List (List Letter)) : Except Err (Oper R) :=
  match a.reshape (List.replicate (2 * ((indicesWith Letter.startsI s).length + (indicesWith Letter.endsO s).length)) 2) with
  | .ok b => .ok (.imm (.ten (some b)) s)
  | .error _ => .error .value

/-- circuit.py:419-424: `PureOperation(data, shape)` with a numpy array. -/
def newPureArr (a : Arr R) (s : List (List Letter)) : Except Err (Oper R) :=
  match a.reshape (List.replicate ((indicesWith Letter.startsI s).length + (indicesWith Letter.endsO s).length) 2) with
  | .ok b => .ok (.pure { data := .ten (some b), shape := s } none)
  | .error _ => .error .value

/-- circuit.py:546-551: `ControlledOperation(data, shape)` with a numpy array. -/
def newCtrlArr (a : Arr R) (s : List (List Letter)) : Except Err (Oper R) :=
  match a.reshape (List.replicate ((indicesWith Letter.isC s).length + (indicesWith Letter.startsI s).length +
      (indicesWith Letter.endsO s).length) 2) with
  | .ok b => .ok (.ctrl (.ten (some b)) s false none)
  | .error _ => .error .value

/-- circuit.py:508-512: `Unitary(num_qubits, data)` with a numpy array. -/
def unitary (n : Nat) (a : Arr R) : Except Err (Oper R) := newPureArr a (List.replicate n [.i, .o])

/-- circuit.py:304-308: `State(num_qubits, data)` with a numpy array. -/
def state (n : Nat) (a : Arr R) : Except Err (Oper R) := newImmArr a (List.replicate n [.o])

/-- circuit.py:329-333: `Measurement(num_qubits, data)` with a numpy array. -/
def measurement (n : Nat) (a : Arr R) : Except Err (Oper R) := newImmArr a (List.replicate n [.i])

/-- circuit.py:355-359: `Channel(num_qubits, data)` with a numpy array. -/
def channel (n : Nat) (a : Arr R) : Except Err (Oper R) := newImmArr a (List.replicate n [.i, .o])

/-- circuit.py:456-460: `PureState(num_qubits, data)` with a numpy array. -/
def pureState (n : Nat) (a : Arr R) : Except Err (Oper R) := newPureArr a (List.replicate n [.o])

/-- circuit.py:476-480: `PureMeas(num_qubits, data)` with a numpy array. -/
def pureMeas (n : Nat) (a : Arr R) : Except Err (Oper R) := newPureArr a (List.replicate n [.i])

/-- circuit.py:590-595: `Diagonal(num_cbits, data)` with a numpy array. -/
def diagonal (n : Nat) (a : Arr R) : Except Err (Oper R) := newCtrlArr a (List.replicate n [.c])

/-- An entry of the list of Kraus operators: something that is no array, or an array with real or complex entries
(circuit.py:260-268: the sum is a real array, adding a complex array to it in place is refused by numpy). -/
inductive KrausArg (R : Type) where
  | other
  | array (complex : Bool) (a : Arr R)

/-- circuit.py:262-268: the loop; `t` is `tensor_density`. -/
def krausLoop [Add R] [Mul R] [Star R] (lin lout : Nat) : List (KrausArg R) → Arr R → Except Err (Arr R)
  | [], t => .ok t
  | .other :: _, _ => .error .type
  | .array cx a :: l, t =>
    if a.shape ≠ List.replicate (lin + lout) 2 ∧ a.shape ≠ [2 ^ lout, 2 ^ lin] then .error .value
    else
      match a.reshape (List.replicate (lin + lout) 2) with
      | .error e => .error e
      | .ok i =>
        if cx then .error .type
        else krausLoop lin lout l
          ⟨t.shape, fun idx => t.get idx + i.get (idx.take (lin + lout)) * star (i.get (idx.drop (lin + lout)))⟩

/-- circuit.py:238-269: `operation_from_kraus(shape, kraus)`. -/
def fromKraus [Zero R] [Add R] [Mul R] [Star R] (s : List (List Letter)) (kraus : List (KrausArg R)) : Except Err (Oper R) :=
  if [] ∈ s then .error .index
  else
    let lin := (s.filter fun w => w.head? = some .i).length
    let lout := (s.filter fun w => w.getLast? = some .o).length
    match krausLoop lin lout kraus ⟨List.replicate (2 * (lin + lout)) 2, fun _ => 0⟩ with
    | .error e => .error e
    | .ok t => newImmArr t s

end Oper

end Verif
