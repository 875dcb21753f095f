import Verif.Model.Adjoint
import Verif.Model.Algebra
/-!
# Model of the operations (acqdp/circuit/circuit.py) and of their conversion (acqdp/circuit/converter.py)

The classes `ImmutableOperation`, `PureOperation`, `ControlledOperation`, `Circuit`, `ControlledCircuit` and
`SuperPosition` as one data type.  Names of operations, used for printing only, are left out.  The data given to a
constructor is taken to be tensor-valued already: for a `numpy.ndarray` the code makes a `Tensor` of it after
`numpy.reshape` (circuit.py:423, :550).
-/

namespace Verif

/-- circuit.py:110-113 with the pattern `^i` (:413, :435, :540, :561). -/
def Letter.startsI (w : List Letter) : Bool := w.head? == some .i

/-- circuit.py:110-113 with the pattern `.*o$` (:414, :436, :541, :562). -/
def Letter.endsO (w : List Letter) : Bool := w.getLast? == some .o

/-- circuit.py:110-113 with the pattern `^c$` (:539, :560). -/
def Letter.isC (w : List Letter) : Bool := w == [.c]

/-- The attributes of a `PureOperation` (circuit.py:362-391): `_tensor_pure`, `shape`, `self_adjoint`; `mark` records
that the object is a member of `CompState` (`(true, k)`) or of `CompMeas` (`(false, k)`) (circuit.py:660, :678). -/
structure PureRec (R : Type) where
  data : TVal R
  shape : List (List Letter)
  selfAdj : Bool := false
  mark : Option (Bool × Nat) := none

/-- The classes of operations.

* `imm`: `ImmutableOperation`, `State`, `Measurement`, `Channel` (circuit.py:179-359), with `_tensor_density`.
* `pure`: `PureOperation` and subclasses (circuit.py:362-504); `adjOp` is the attribute `adjoint_op` set by
  `set_adjoint_op` (:409-410), the two objects refer to each other.  `XRotation` (:703-726), whose method `adjoint`
  is overridden, is an operation with a known adjoint.
* `ctrl`: `ControlledOperation`, `Diagonal` (circuit.py:507-594), with `_tensor_control`; `over` is the data of the
  adjoint for `ZRotation` (:729-750).
* `circ`: `Circuit` (circuit.py:753-1009).
* `cctrl`: `ControlledCircuit` (circuit.py:1012-1056).
* `sup`: `SuperPosition` (circuit.py:1104-1154). -/
inductive Oper (R : Type) where
  | imm (data : TVal R) (shape : List (List Letter))
  | pure (p : PureRec R) (adjOp : Option (PureRec R))
  | ctrl (data : TVal R) (shape : List (List Letter)) (selfAdj : Bool) (over : Option (TVal R))
  | circ (ops : List (Nm × OpRec (Oper R)))
  | cctrl (ops : List (Nm × OpRec (Oper R))) (shape : List (List Letter)) (cond : Bool)
  | sup (terms : List (R × Oper R)) (shape : List (List Letter))

namespace Oper

variable {R : Type}

/-- circuit.py:412-418: `PureOperation(data, shape)`. -/
def newPure (data : TVal R) (s : List (List Letter)) : Except Err (Oper R) :=
  if data.shape = some (List.replicate ((indicesWith Letter.startsI s).length + (indicesWith Letter.endsO s).length) (some 2)) then
    .ok (.pure { data := data, shape := s } none)
  else .error .value

/-- circuit.py:538-545: `ControlledOperation(data, shape)`. -/
def newCtrl (data : TVal R) (s : List (List Letter)) : Except Err (Oper R) :=
  if data.shape = some (List.replicate ((indicesWith Letter.isC s).length + (indicesWith Letter.startsI s).length +
      (indicesWith Letter.endsO s).length) (some 2)) then
    .ok (.ctrl data s false none)
  else .error .value

/-- The property `shape` of the classes: stored except for circuits (circuit.py:206, :935-964, :1035, :1141);
`I` gives the shapes of the operations of a circuit. -/
def shapeOf (I : OpsIface (Oper R) (TVal R)) : Oper R → Except Err (List (List Letter))
  | .imm _ s => .ok s
  | .pure p _ => .ok p.shape
  | .ctrl _ s _ _ => .ok s
  | .circ c => Circ.shape I.shape c
  | .cctrl _ s _ => .ok s
  | .sup _ s => .ok s

/-- The property `is_pure` of the classes (circuit.py:271-285, :978-989, :1143-1149). -/
def pureOf (I : OpsIface (Oper R) (TVal R)) : Oper R → Except Err Bool
  | .imm _ _ => .ok false
  | .circ c => Circ.isPure I c
  | _ => .ok true

/-- Membership in `CompState` and `CompMeas` (converter.py:105, :107). -/
def basisOf : Oper R → Option (Bool × Nat)
  | .pure p _ => p.mark
  | _ => none

/-- `list.index`. -/
def indexIn (l : List Nat) (i : Nat) : Except Err Nat := if i ∈ l then .ok (l.idxOf i) else .error .value

/-- converter.py:41-60: `convert_pure` of a `ControlledOperation`. -/
def convertCtrl (data : TVal R) (s : List (List Letter)) : Except Err (TVal R) :=
  match ({} : TN (TVal R)).addNode (some (.str "TC")) (.str "TC") none data false with
  | (_, .error e) => .error e
  | (tn, .ok _) =>
    let cs := indicesWith Letter.isC s
    let os := indicesWith Letter.endsO s
    let is := indicesWith Letter.startsI s
    match (indicesWith Letter.endsOut s).mapM (fun i =>
      if i ∈ cs then indexIn cs i else (indexIn os i).map fun k => cs.length + k) with
    | .error e => .error e
    | .ok outs =>
      match (indicesWith Letter.startsIn s).mapM (fun i =>
        if i ∈ cs then indexIn cs i else (indexIn is i).map fun k => cs.length + os.length + k) with
      | .error e => .error e
      | .ok ins => .ok (.ofTN { tn with openE := (outs ++ ins).map fun k : Nat => Nm.int k })

/-- converter.py:63-67: the loop over the components of a `SuperPosition`; `coef * tensor` makes a network of both
(tensor_valued.py:134-146), whose node names are the identifiers of the two objects, here 0 and 1. -/
def supLoop (I : OpsIface (Oper R) (TVal R)) : List (R × Oper R) → Nat → TSum (TVal R) → Except Err (TSum (TVal R))
  | [], _, ts => .ok ts
  | (c, op) :: l, i, ts =>
    match I.tensor op with
    | .error e => .error e
    | .ok t =>
      match TVal.mul (.int 0) t (.int 1) (.scalar c) with
      | .error e => .error e
      | .ok t' =>
        match ts.addTerm (some (.int i)) (.int i) t' with
        | (_, .error e) => .error e
        | (ts', .ok _) => supLoop I l (i + 1) ts'

/-- circuit.py:1092-1096: the network whose contraction is the identity. -/
def identityNet (n c : Nat) : Res (TVal R) Unit :=
  match forLoop (fun tn (i : Nat) => tn.openEdge (.int i) (some 2)) (List.range n) ({} : TN (TVal R)) with
  | (tn, .error e) => (tn, .error e)
  | (tn, .ok ()) => forLoop (fun tn (i : Nat) => tn.openEdge (.int i) none) (List.range' c (n - c)) tn

/-- `numpy.stack((a, b))`: the arrays must have the same shape. -/
def stack (a b : Arr R) : Except Err (Arr R) :=
  if a.shape = b.shape then
    .ok ⟨2 :: a.shape, fun idx => if idx.head? = some 0 then a.get idx.tail else b.get idx.tail⟩
  else .error .value

/-- converter.py:116-129: `convert_control`; a `ControlledCircuit` is a `ControlledOperation` without the attribute
`_tensor_control` (circuit.py:1029-1038). -/
def controlOf (I : OpsIface (Oper R) (TVal R)) (op : Oper R) : Except Err (TVal R) :=
  match I.pure op with
  | .error e => .error e
  | .ok false => .error .value
  | .ok true =>
    match op with
    | .ctrl data _ _ _ => .ok data
    | .cctrl _ _ _ => .error .attribute
    | op => I.tensor op

/-- circuit.py:1059-1101: `Controlled(operation, conditioned_on=cond)`.  `ctr` is `contract()`. -/
def controlled (ctr : TVal R → Except Err (Arr R)) (I : OpsIface (Oper R) (TVal R)) (op : Oper R) (cond : Bool) :
    Except Err (Oper R) :=
  match I.pure op with
  | .error e => .error e
  | .ok false => .error .value
  | .ok true =>
    match I.shape op with
    | .error e => .error e
    | .ok s =>
      if ¬ s.all (fun w => w == [.i, .o] || w == [.c]) then .error .value
      else
        match op with
        | .circ c => .ok (.cctrl c ([.c] :: s) cond)
        | op =>
          match controlOf I op with
          | .error e => .error e
          | .ok t =>
            match ctr t with
            | .error e => .error e
            | .ok data =>
              match identityNet (R := R) s.length (indicesWith Letter.isC s).length with
              | (_, .error e) => .error e
              | (tn, .ok ()) =>
                match ctr (.ofTN tn) with
                | .error e => .error e
                | .ok ident =>
                  match if cond then stack ident data else stack data ident with
                  | .error e => .error e
                  | .ok a => newCtrl (.ten (some a)) ([.c] :: s)

/-- converter.py:35-39: the loop of `convert_pure` of a `ControlledCircuit`; `qs` is `op.all_qubits`. -/
def cctrlLoop (ctr : TVal R → Except Err (Arr R)) (I : OpsIface (Oper R) (TVal R)) (cond : Bool) (qs : List Int) :
    List (Nm × OpRec (Oper R)) → Circ (Oper R) → Except Err (Circ (Oper R))
  | [], c => .ok c
  | (_, r) :: l, c =>
    match controlled ctr I r.op cond with
    | .error e => .error e
    | .ok op' =>
      match c.append I.shape op' (0 :: r.qubits.map fun q => 1 + (qs.idxOf q : Int)) with
      | .error e => .error e
      | .ok c' => cctrlLoop ctr I cond qs l c'

/-- converter.py:22-113: `convert_pure`. -/
def tensorOf (ctr : TVal R → Except Err (Arr R)) (I : OpsIface (Oper R) (TVal R)) : Oper R → Except Err (TVal R)
  | .imm _ _ => .error .value
  | .pure p _ => .ok p.data
  | .ctrl data s _ _ => convertCtrl data s
  | .circ c => (Circ.convertPure I c).map .ofTN
  | .cctrl c _ cond =>
    match cctrlLoop ctr I cond (Circ.allQubits c) c [] with
    | .error e => .error e
    | .ok c' => (Circ.convertPure I c').map .ofTN
  | .sup terms _ => (supLoop I terms 0 {}).map fun ts => .sum ts.terms

/-- What a circuit looks at in its operations, which may be circuits themselves: `n` bounds the nesting depth
(Python's recursion limit). -/
def iface (ctr : TVal R → Except Err (Arr R)) : Nat → OpsIface (Oper R) (TVal R)
  | 0 => ⟨fun _ => .error .runtime, fun _ => .error .runtime, basisOf, fun _ => .error .runtime⟩
  | n + 1 => ⟨shapeOf (iface ctr n), pureOf (iface ctr n), basisOf, tensorOf ctr (iface ctr n)⟩

/-- circuit.py:433-434: a string reversed, with `i` and `o` exchanged; other letters are no keys. -/
def flipPure (s : List (List Letter)) : Except Err (List (List Letter)) :=
  s.mapM fun w => w.reverse.mapM fun l =>
    match l with
    | .i => .ok .o
    | .o => .ok .i
    | _ => .error .key

/-- circuit.py:558-559: the same with `c` as a further key. -/
def flipCtrl (s : List (List Letter)) : Except Err (List (List Letter)) :=
  s.mapM fun w => w.reverse.mapM fun l =>
    match l with
    | .i => .ok .o
    | .o => .ok .i
    | .c => .ok .c
    | _ => .error .key

/-- circuit.py:427-438: `PureOperation.adjoint`, and :725-726 with the adjoint as known adjoint. -/
def adjPure [Star R] (p : PureRec R) (adjOp : Option (PureRec R)) : Except Err (Oper R) :=
  if p.selfAdj then .ok (.pure p adjOp)
  else
    match adjOp with
    | some p' => .ok (.pure p' (some p))
    | none =>
      match flipPure p.shape with
      | .error e => .error e
      | .ok s' =>
        let lin := (indicesWith Letter.startsI p.shape).length
        let lout := (indicesWith Letter.endsO p.shape).length
        match TVal.conj p.data with
        | .error e => .error e
        | .ok t =>
          match TVal.transpose (.int 0) t (List.range' lout lin ++ List.range lout) with
          | .error e => .error e
          | .ok t' => newPure t' s'

/-- circuit.py:554-567: `ControlledOperation.adjoint`, and :749-750. -/
def adjCtrl [Star R] (data : TVal R) (s : List (List Letter)) (selfAdj : Bool) (over : Option (TVal R)) :
    Except Err (Oper R) :=
  match over with
  | some data' => .ok (.ctrl data' s selfAdj (some data))
  | none =>
    if selfAdj then .ok (.ctrl data s selfAdj over)
    else
      match flipCtrl s with
      | .error e => .error e
      | .ok s' =>
        let lctrl := (indicesWith Letter.isC s).length
        let lin := (indicesWith Letter.startsI s).length
        let lout := (indicesWith Letter.endsO s).length
        match TVal.conj data with
        | .error e => .error e
        | .ok t =>
          match TVal.transpose (.int 0) t (List.range lctrl ++ List.range' (lctrl + lout) lin ++ List.range' lctrl lout) with
          | .error e => .error e
          | .ok t' => newCtrl t' s'

/-- circuit.py:1130-1138: the checks of `SuperPosition.__init__` on one component; the list `shape` has the length
of the shape of the first one. -/
def supCheck (I : OpsIface (Oper R) (TVal R)) (s0 : List (List Letter)) (op : Oper R) : Except Err Unit :=
  match I.shape op with
  | .error e => .error e
  | .ok s =>
    if indicesWith Letter.startsIn s ≠ indicesWith Letter.startsIn s0 ∨
        indicesWith Letter.endsOut s ≠ indicesWith Letter.endsOut s0 then .error .value
    else
      match I.pure op with
      | .error e => .error e
      | .ok false => .error .value
      | .ok true => if s0.length < s.length then .error .index else .ok ()

/-- circuit.py:1118-1141: `SuperPosition(operations, coefs)` with as many coefficients as operations; `c` becomes `io`
in the shape. -/
def newSup (I : OpsIface (Oper R) (TVal R)) (terms : List (R × Oper R)) : Except Err (Oper R) :=
  match terms with
  | [] => .error .index
  | (_, op0) :: _ =>
    match I.shape op0 with
    | .error e => .error e
    | .ok s0 =>
      match terms.mapM fun p => supCheck I s0 p.2 with
      | .error e => .error e
      | .ok _ => .ok (.sup terms (s0.map fun w => if w = [.c] then [.i, .o] else w))

/-- The methods `adjoint` of the classes (circuit.py:168-173, :427-438, :554-567, :991-1000, :1047-1048, :1151-1154);
`I` and `adj` serve the operations inside. -/
def adjOf [Star R] (I : OpsIface (Oper R) (TVal R)) (adj : Oper R → Except Err (Oper R)) : Oper R → Except Err (Oper R)
  | .imm _ _ => .error .runtime
  | .pure p q => adjPure p q
  | .ctrl data s sa ov => adjCtrl data s sa ov
  | .circ c => (Circ.adjoint I adj c).map .circ
  | .cctrl c _ cond =>
    match Circ.adjoint I adj c with
    | .error e => .error e
    | .ok c' =>
      match Circ.shape I.shape c' with
      | .error e => .error e
      | .ok s' => .ok (.cctrl c' ([.c] :: s') cond)
  | .sup terms _ =>
    match terms.mapM fun p => (adj p.2).map fun op' => (star p.1, op') with
    | .error e => .error e
    | .ok terms' => newSup I terms'

/-- `~operation` (circuit.py:175-176), `n` bounding the nesting depth. -/
def adjoint [Star R] (ctr : TVal R → Except Err (Arr R)) : Nat → Oper R → Except Err (Oper R)
  | 0, _ => .error .runtime
  | n + 1, op => adjOf (iface ctr n) (adjoint ctr n) op

end Oper

end Verif
