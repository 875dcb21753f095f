import Verif.Model.TN
import Mathlib.Data.List.Sort
import Mathlib.Data.List.Dedup
import Mathlib.Order.Lattice
/-!
# Model of `Circuit` (acqdp/circuit/circuit.py): operations, times and wires

The class is modelled for an arbitrary type `α` of operations, of which only the `shape` is looked at.
Time steps and qubit names are integers (in the code: numbers and comparable hashables).
-/

namespace Verif

/-- The letters of the strings in `Operation.shape` (circuit.py:190-195, :517-521, :947). -/
inductive Letter where
  | i | o | c | b | d
  deriving DecidableEq, Repr

/-- An entry of `Circuit.operations_by_name` (circuit.py:767-775, :827-829). -/
structure OpRec (α : Type) where
  op : α
  time : Int
  qubits : List Int
  deriving DecidableEq, Repr

/-- `Circuit.operations_by_name` (circuit.py:780). -/
abbrev Circ (α : Type) := Dict Nm (OpRec α)

namespace Circ

variable {α : Type}

/-- The shape of an operation; a circuit as operation may raise (circuit.py:936-964). -/
abbrev ShapeFn (α : Type) := α → Except Err (List (List Letter))

/-- circuit.py:782-787: `max_time`. -/
def maxTime : Circ α → Int
  | [] => -1
  | (_, r) :: c => c.foldl (fun m p => max m p.2.time) r.time

/-- circuit.py:821-823: the default name `(time_step, tuple(qubits))`. -/
def autoName (t : Int) (qs : List Int) : Nm := .pair (.int t) (qs.foldr (fun q n => .cons (.int q) n) .nil)

/-- circuit.py:789-830: `append`; the circuit afterwards (the method returns `self`). -/
def append (sh : ShapeFn α) (c : Circ α) (op : α) (qs : List Int) (time : Option Int := none) (name : Option Nm := none) :
    Except Err (Circ α) :=
  let t := time.getD (1 + c.maxTime)
  let n := name.getD (autoName t qs)
  if ¬ qs.Nodup then .error .value
  else
    match sh op with
    | .error e => .error e
    | .ok s => if qs.length ≠ s.length then .error .value else .ok (c.set n ⟨op, t, qs⟩)

/-- circuit.py:906, :910: the distinct time steps, increasing. -/
def times (c : Circ α) : List Int := ((c.map fun p => p.2.time).dedup).insertionSort (· ≤ ·)

/-- circuit.py:898-910: `operations_by_time`: for every time step, in increasing order, the operations at
that time in insertion order. -/
def byTime (c : Circ α) : List (Int × Circ α) := c.times.map fun t => (t, c.filter fun p => p.2.time = t)

/-- The loops `for time_step in operations_by_time: for gate in operations_by_time[time_step]`
(circuit.py:949-950, :99-100) as one list. -/
def inOrder (c : Circ α) : Circ α := c.byTime.flatMap Prod.snd

/-- circuit.py:923-933: `all_qubits`. -/
def allQubits (c : Circ α) : List Int := ((c.flatMap fun p => p.2.qubits).dedup).insertionSort (· ≤ ·)

/-- circuit.py:947: `trans_dict`. -/
def trans : Letter → List Letter
  | .b => [.i]
  | .d => [.o]
  | .c => [.i, .o]
  | .i => [.i]
  | .o => [.o]

/-- circuit.py:946, :948: the dictionaries `last_time_used` (`none` for `-inf`) and `shape`, as functions. -/
structure Wires where
  last : Int → Option Int := fun _ => none
  str : Int → List Letter := fun _ => []

/-- circuit.py:953: `last_time_used[qubit] >= time_step`. -/
def busy (w : Wires) (t q : Int) : Bool :=
  match w.last q with
  | none => false
  | some t' => decide (t ≤ t')

/-- circuit.py:952-957: the loop over the qubits of a gate, `s` being the shape of the operation. -/
def useQubits (t : Int) : List Int → List (List Letter) → Wires → Except Err Wires
  | [], _, w => .ok w
  | _ :: _, [], _ => .error .index
  | q :: qs, l :: s, w =>
    if busy w t q then .error .value
    else useQubits t qs s ⟨Function.update w.last q (some t), Function.update w.str q (w.str q ++ l.flatMap trans)⟩

/-- circuit.py:949-957: the loop over the gates. -/
def useAll (sh : ShapeFn α) : Circ α → Wires → Except Err Wires
  | [], w => .ok w
  | (_, r) :: c, w =>
    match sh r.op with
    | .error e => .error e
    | .ok s =>
      match useQubits r.time r.qubits s w with
      | .error e => .error e
      | .ok w' => useAll sh c w'

/-- circuit.py:958, the part `(io)*i?$` of the regular expression. -/
def matchTail : List Letter → Bool
  | [] => true
  | [.i] => true
  | .i :: .o :: l => matchTail l
  | _ => false

/-- circuit.py:958: the regular expression `^o?(io)*i?$`. -/
def matchWire : List Letter → Bool
  | .o :: l => matchTail l
  | l => matchTail l

/-- circuit.py:959-963: the check and the reported string of one qubit. -/
def report (w : List Letter) : Except Err (List Letter) :=
  if matchWire w then .ok (w.take (2 - w.length % 2)) else .error .value

/-- circuit.py:935-964: `shape`. -/
def shape (sh : ShapeFn α) (c : Circ α) : Except Err (List (List Letter)) :=
  match useAll sh c.inOrder {} with
  | .error e => .error e
  | .ok w => c.allQubits.mapM fun q => report (w.str q)

/-- circuit.py:966-976: `is_valid` (only `ValueError` is caught). -/
def isValid (sh : ShapeFn α) (c : Circ α) : Except Err Bool :=
  match c.shape sh with
  | .ok _ => .ok true
  | .error .value => .ok false
  | .error e => .error e

/-- circuit.py:1002-1009: `__copy__`: every operation is appended to a new circuit. -/
def copyLoop (sh : ShapeFn α) : Circ α → Circ α → Except Err (Circ α)
  | acc, [] => .ok acc
  | acc, (n, r) :: c =>
    match acc.append sh r.op r.qubits (some r.time) (some n) with
    | .error e => .error e
    | .ok acc' => copyLoop sh acc' c

/-- circuit.py:1002-1009: `copy(c)`. -/
def copy (sh : ShapeFn α) (c : Circ α) : Except Err (Circ α) := copyLoop sh [] c

/-- circuit.py:99-103: appending operations one by one without time and name. -/
def appendAll (sh : ShapeFn α) : Circ α → Circ α → Except Err (Circ α)
  | acc, [] => .ok acc
  | acc, (_, r) :: c =>
    match acc.append sh r.op r.qubits with
    | .error e => .error e
    | .ok acc' => appendAll sh acc' c

/-- circuit.py:96-104: `a | b` of two circuits. -/
def orCirc (sh : ShapeFn α) (a b : Circ α) : Except Err (Circ α) :=
  match a.copy sh with
  | .error e => .error e
  | .ok a' => appendAll sh a' b.inOrder

end Circ

end Verif
