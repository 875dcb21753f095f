import Verif.Model.Value
/-!
# Model of `complete_delta` (acqdp/tensor_network/tensor_network.py:490-526)
-/

namespace Verif

variable {R : Type} [Zero R] [One R]

/-- `numpy.eye(d)`, tensor_network.py:510 -/
def eyeArr (d : Nat) : Arr R :=
  ⟨[d, d], fun idx => match idx with | [i, j] => if i = j then 1 else 0 | _ => 0⟩

/-- `numpy.array([1 if i in vals else 0 for i in range(d)])`, tensor_network.py:517-524; all ones when there is
no fix. -/
def diagArr (d : Nat) (vals : Option (List Nat)) : Arr R :=
  ⟨[d], fun idx => match idx with
    | [i] => match vals with
      | some l => if i ∈ l then 1 else 0
      | none => 1
    | _ => 0⟩

/-- `numpy.array(1)`, tensor_network.py:502 -/
def oneArr : Arr R := ⟨[], fun _ => 1⟩

/-- The node name `("*", e, k)`, tensor_network.py:511, 525 -/
def deltaNode (e : Nm) (k : Nat) : Nm := Nm.triple (.str "*") e (.int k)

/-- The edge name `(e, k)`, tensor_network.py:512-513 -/
def deltaEdge (e : Nm) (k : Nat) : Nm := Nm.pair e (.int k)

namespace TN

/-- tensor_network.py:504-513: body of the loop over the open edges (position and name); the state is the
network and the dictionary `open_edge_names`. -/
def deltaOpen1 (st : TN (TVal R) × Dict Nm Nat) (p : Nat × Nm) : (TN (TVal R) × Dict Nm Nat) × Except Err Unit :=
  match st.2.get? p.2 with
  | none => ((st.1, st.2.set p.2 0), .ok ())
  | some k =>
    match st.1.edges.get? p.2 with
    | none => (st, .error .key)
    | some r =>
      match r.dim with
      | none => (st, .error .type)
      | some d =>
        match st.1.addNode (some (deltaNode p.2 (k + 1))) (deltaNode p.2 (k + 1))
            (some [p.2, deltaEdge p.2 (k + 1)]) (.ten (some (eyeArr d))) false with
        | (tn', .ok _) =>
          (({ tn' with openE := tn'.openE.set p.1 (deltaEdge p.2 (k + 1)) }, st.2.set p.2 (k + 1)), .ok ())
        | (tn', .error er) => ((tn', st.2), .error er)

/-- tensor_network.py:520: `pop('fix_to')` -/
def popFix (tn : TN (TVal R)) (e : Nm) : TN (TVal R) :=
  { tn with edges := tn.edges.modify e fun r => { r with fix := none } }

/-- tensor_network.py:514-525: body of the loop over `open_edge_names` (name and number of repetitions);
`attached` is the set of edges computed at :499. -/
def deltaDiag1 (attached : Nm → Bool) (tn : TN (TVal R)) (p : Nm × Nat) : Res (TVal R) Unit :=
  match tn.edges.get? p.1 with
  | none => (tn, .error .key)
  | some r =>
    if r.fix.isSome || (!attached p.1 && p.2 == 0) then
      match r.dim with
      | none => (tn, .error .type)
      | some d =>
        match (tn.popFix p.1).addNode (some (deltaNode p.1 0)) (deltaNode p.1 0) (some [p.1])
            (.ten (some (diagArr d r.fix))) false with
        | (tn', .ok _) => (tn', .ok ())
        | (tn', .error er) => (tn', .error er)
    else (tn, .ok ())

/-- tensor_network.py:500-525 (also compiler.py:156-183): the body of `complete_delta`. -/
def deltaBody (tn : TN (TVal R)) : Res (TVal R) Unit :=
  let attached : Nm → Bool := fun e => tn.adj.any fun p => p.2 == e
  let start : Res (TVal R) Nm :=
    if tn.nodes.isEmpty then tn.addNode (some (.str "*")) (.str "*") (some []) (.ten (some oneArr)) false
    else (tn, .ok (.str "*"))
  match start with
  | (tn1, .error er) => (tn1, .error er)
  | (tn1, .ok _) =>
    match forLoop deltaOpen1 ((List.range tn1.openE.length).zip tn1.openE) (tn1, []) with
    | ((tn2, _), .error er) => (tn2, .error er)
    | ((tn2, names), .ok ()) => forLoop (deltaDiag1 attached) names tn2

/-- tensor_network.py:490-526: `complete_delta`. -/
def completeDelta (tn : TN (TVal R)) : Res (TVal R) Unit :=
  if tn.nodes.has (.str "*") then (tn, .ok ()) else tn.deltaBody

end TN

end Verif
