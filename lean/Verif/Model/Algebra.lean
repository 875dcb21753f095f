import Verif.Model.Value
import Verif.Model.Sum
import Verif.Model.Ops
import Mathlib.Algebra.Star.Basic
/-!
# Model of the operators on tensor-valued objects (acqdp/tensor_network/tensor_valued.py)

Objects are identified by the integer `identifier` (tensor_valued.py:68-77), which names nodes and terms added
without a name; it is passed explicitly (`ia`, `ib`, ...).
-/

namespace Verif

variable {R : Type}

/-- `numpy.conj`. -/
def Arr.conj [Star R] (a : Arr R) : Arr R := ⟨a.shape, fun i => star (a.get i)⟩

namespace TVal

mutual
/-- tensor_valued.py:6-33: `conjugate`.  The copy of a sum (tensor_sum.py:187-191) raises if the shapes of its
terms are incompatible; the copy of a network (tensor_network.py:739-745) restarts the name counter. -/
def conj [Star R] : TVal R → Except Err (TVal R)
  | .ten none => .ok (.ten none)
  | .ten (some a) => .ok (.ten (some a.conj))
  | .sum ts =>
    match TSum.copy ⟨ts, none⟩ with
    | .error e => .error e
    | .ok _ => (conjTerms ts).map .sum
  | .net ns es adj op _ => (conjNodes ns).map fun ns' => .net ns' es adj op 0
  | .view t => .ok (.view (.view t))

/-- tensor_valued.py:23-26: the loop over the terms. -/
def conjTerms [Star R] : List (Nm × TVal R) → Except Err (List (Nm × TVal R))
  | [] => .ok []
  | (n, t) :: ts =>
    match conj t, conjTerms ts with
    | .ok t', .ok ts' => .ok ((n, t') :: ts')
    | .error e, _ => .error e
    | _, .error e => .error e

/-- tensor_valued.py:28-30: the loop over the nodes. -/
def conjNodes [Star R] : List (Nm × NodeRec (TVal R)) → Except Err (List (Nm × NodeRec (TVal R)))
  | [] => .ok []
  | (_, ⟨_, none, _⟩) :: _ => .error .key
  | (n, ⟨legs, some t, fr⟩) :: ns =>
    match conj t, conjNodes ns with
    | .ok t', .ok ns' => .ok ((n, ⟨legs, some t', fr⟩) :: ns')
    | .error e, _ => .error e
    | _, .error e => .error e
end

/-- tensor_valued.py:36-48: `transpose(t, axes)` for non-negative `axes`. -/
def transpose (ident : Nm) (t : TVal R) (axes : List Nat) : Except Err (TVal R) :=
  match ({} : TN (TVal R)).addNode none ident none t true with
  | (_, .error e) => .error e
  | (tn, .ok _) =>
    match axes.mapM (fun i => tn.openE[i]?) with
    | none => .error .index
    | some op => .ok (ofTN { tn with openE := op })

/-- tensor_valued.py:134-146: `a * b`. -/
def mul (ia : Nm) (a : TVal R) (ib : Nm) (b : TVal R) : Except Err (TVal R) :=
  match ({} : TN (TVal R)).addNode none ia none a true with
  | (_, .error e) => .error e
  | (tn, .ok _) =>
    match tn.addNode none ib none b true with
    | (_, .error e) => .error e
    | (tn', .ok _) => .ok (ofTN tn')

/-- tensor_valued.py:148-158: `a + b`. -/
def add (ia : Nm) (a : TVal R) (ib : Nm) (b : TVal R) : Except Err (TVal R) :=
  match ({} : TSum (TVal R)).addTerm none ia a with
  | (_, .error e) => .error e
  | (s, .ok _) =>
    match s.addTerm none ib b with
    | (_, .error e) => .error e
    | (s', .ok _) => .ok (.sum s'.terms)

/-- `Tensor(c)` for a number (tensor.py:16-32). -/
def scalar (c : R) : TVal R := .ten (some ⟨[], fun _ => c⟩)

/-- tensor_valued.py:160-162: `-a` is `-1 * a`, that is `a * (-1)`; `i1` identifies the tensor made of `-1`. -/
def neg [One R] [Neg R] (ia : Nm) (a : TVal R) (i1 : Nm) : Except Err (TVal R) := mul ia a i1 (scalar (-1))

/-- tensor_valued.py:164-166: `a - b`; `i2` identifies the object `-b`. -/
def sub [One R] [Neg R] (ia : Nm) (a : TVal R) (ib : Nm) (b : TVal R) (i1 i2 : Nm) : Except Err (TVal R) :=
  match neg ib b i1 with
  | .error e => .error e
  | .ok b' => add ia a i2 b'

/-- tensor_valued.py:176-182: the network contracted by `norm_squared`; `ib` identifies `~self`. -/
def normNet [Star R] (ia : Nm) (a : TVal R) (ib : Nm) : Except Err (TVal R) :=
  match ({} : TN (TVal R)).addNode none ia none a false, conj a with
  | (_, .error e), _ => .error e
  | _, .error e => .error e
  | (tn, .ok _), .ok a' =>
    match tn.addNode none ib none a' false with
    | (_, .error e) => .error e
    | (tn', .ok _) => .ok (ofTN tn')

/-- tensor.py:89-100: `Tensor.fix_index` (in place; the tensor is returned).  `numpy.moveaxis(data, i, 0)[v]`
drops axis `i` and takes entry `v` on it; `IndexError` / `AxisError` if out of range. -/
def fixTensor (i v : Nat) : Option (Arr R) → Except Err (Option (Arr R))
  | none => .ok none
  | some a =>
    match a.shape[i]? with
    | none => .error .index
    | some d => if v < d then .ok (some ⟨a.shape.eraseIdx i, fun idx => a.get (idx.insertIdx i v)⟩) else .error .index

mutual
/-- `fix_index` of the four classes, the object returned: tensor.py:89-100, tensor_network.py:466-472,
tensor_sum.py:153-168 (on a copy of the sum, whose terms are the same objects) and tensor_view.py:74-85, which returns
`None`: an error here, as the caller cannot go on. -/
def fixVal (i v : Nat) : TVal R → Except Err (TVal R)
  | .ten a => (fixTensor i v a).map .ten
  | .net ns es adj op c =>
    match (TN.mk ns es adj op c).fixIndex i v with
    | (tn, .ok _) => .ok (ofTN tn)
    | (_, .error e) => .error e
  | .sum ts =>
    match TSum.copy ⟨ts, none⟩ with
    | .error e => .error e
    | .ok _ => (fixTerms i v ts).map .sum
  | .view _ => .error .type

/-- tensor_sum.py:165-166: the loop over the terms. -/
def fixTerms (i v : Nat) : List (Nm × TVal R) → Except Err (List (Nm × TVal R))
  | [] => .ok []
  | (n, t) :: ts =>
    match fixVal i v t, fixTerms i v ts with
    | .ok t', .ok ts' => .ok ((n, t') :: ts')
    | .error e, _ => .error e
    | _, .error e => .error e
end

/-- tensor_sum.py:153-168 with the effect on the sum itself: its terms, if arrays or networks, are changed in place
(tensor.py:98, tensor_network.py:471), its cached shape is not.  First the sum itself after the call, then the
returned sum. -/
def fixSum (i v : Nat) (s : TSum (TVal R)) : Except Err (TSum (TVal R) × TSum (TVal R)) :=
  match TSum.copy s, fixTerms i v s.terms with
  | .ok _, .ok ts => .ok ({ s with terms := ts }, { terms := ts })
  | .error e, _ => .error e
  | _, .error e => .error e

end TVal

end Verif
