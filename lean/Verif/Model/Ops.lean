import Verif.Model.TN
/-!
# Model of sub-networks (`subtn`, `encapsulate`) and of edit histories
(acqdp/tensor_network/tensor_network.py)
-/

namespace Verif

/-- Tensor values that can be networks themselves. -/
class NetTensor (τ : Type) extends HasShape τ where
  ofNet : TN τ → τ
  shape_ofNet : ∀ t : TN τ, HasShape.shape (ofNet t) = t.shape?

namespace TN

variable {τ : Type}

/-- tensor_network.py:223-233: `closed_edges_by_name_from_nodes_by_name` (a set; listed here in the order
of the edge table). -/
def closedOfNodes (tn : TN τ) (ns : List Nm) : List Nm :=
  tn.edges.keys.filter fun e =>
    tn.edgeOfNodes ns e && (tn.adjOfEdge e).all (fun n => ns.contains n) && !(tn.openE.contains e)

/-- tensor_network.py:649-650: the edges of a sub-network that stay open (a set; listed here in the order
of the edge table). -/
def boundaryOfNodes (tn : TN τ) (ns : List Nm) : List Nm :=
  tn.edges.keys.filter fun e =>
    tn.edgeOfNodes ns e && !((tn.closedOfNodes ns).contains e) &&
      ((tn.edges.get? e).bind EdgeRec.fix).isNone

/-- tensor_network.py:35-40: `TensorNetwork(open_edges=opn)` without bond dimension. -/
def emptyOpen (opn : List Nm) : TN τ :=
  { (opn.foldl (fun (t : TN τ) e => (t.addEdge (some e) none).1) ({} : TN τ)) with openE := opn }

/-- tensor_network.py:657-658: adding the chosen nodes to the new network. -/
def subtnNodes [HasShape τ] (src : TN τ) (stn : TN τ) (n : Nm) : Res τ Unit :=
  match src.nodes.get? n with
  | none => (stn, .error .key)
  | some r =>
    match r.ten with
    | none => (stn, .error .key)
    | some t =>
      match stn.addNode (some n) n (some r.legs) t false with
      | (stn', .ok _) => (stn', .ok ())
      | (stn', .error e) => (stn', .error e)

/-- tensor_network.py:659-661: copying the attributes of the closed edges. -/
def copyEdgeAttrs (src : TN τ) (stn : TN τ) (es : List Nm) : TN τ :=
  { stn with edges := stn.edges.map fun p =>
      (p.1, if p.1 ∈ es then (src.edges.get? p.1).getD p.2 else p.2) }

/-- tensor_network.py:635-662: `subtn(nodes)` with the list of nodes given and `edges=None`.  `opn` is the
iteration order of the set of boundary edges (or the `open_edges` argument, which must list the same set).
Not modelled: the variants with `nodes=None` or a given `edges` argument. -/
def subtn [HasShape τ] (tn : TN τ) (ns opn : List Nm) : Except Err (TN τ) :=
  if ns.all tn.nodes.has then
    let bd := tn.boundaryOfNodes ns
    if opn.all (bd.contains ·) && bd.all (opn.contains ·) then
      match forLoop (subtnNodes tn) ns (emptyOpen opn) with
      | (stn, .ok ()) => .ok (copyEdgeAttrs tn stn (tn.closedOfNodes ns))
      | (_, .error e) => .error e
    else .error .assertion
  else .error .assertion

/-- tensor_network.py:670-672: removing the nodes and closed edges of a sub-network. -/
def dropSub (tn : TN τ) (ns closed : List Nm) : TN τ :=
  { tn with
    nodes := tn.nodes.filterKeys fun n => !(ns.contains n)
    edges := tn.edges.filterKeys fun e => !(closed.contains e)
    adj := tn.adj.filter fun p => !(ns.contains p.1) && !(closed.contains p.2) }

/-- tensor_network.py:664-675: `encapsulate(nodes, stn_name=name)`. -/
def encapsulate [NetTensor τ] (tn : TN τ) (ns opn : List Nm) (name : Option Nm) (ident : Nm) : Res τ Nm :=
  match tn.subtn ns opn with
  | .error e => (tn, .error e)
  | .ok stn =>
    (tn.dropSub ns (tn.closedOfNodes ns)).addNode name ident (some stn.openE) (NetTensor.ofNet stn) false

/-- tensor_network.py:677-683: `partial_contract(nodes, stn_name=name)`; `contract` is `stn.contract()`
wrapped into a tensor by `update_node`. -/
def partialContract [NetTensor τ] (contract : TN τ → Except Err τ) (tn : TN τ) (ns opn : List Nm)
    (name : Option Nm) (ident : Nm) : Res τ Unit :=
  match tn.subtn ns opn, tn.encapsulate ns opn name ident with
  | .ok stn, (tn', .ok n) =>
    match contract stn with
    | .ok t => tn'.updateNode n t
    | .error e => (tn', .error e)
  | _, (tn', .error e) => (tn', .error e)
  | .error e, (tn', _) => (tn', .error e)

end TN

/-- The public editing calls of `TensorNetwork`. -/
inductive Op (τ : Type) where
  | addNode (name : Option Nm) (ident : Nm) (edges : Option (List Nm)) (t : τ) (isOpen : Bool)
  | popNode (n : Nm)
  | removeNode (n : Nm)
  | updateNode (n : Nm) (t : τ)
  | addEdge (name : Option Nm) (dim : Option Nat)
  | openEdge (e : Nm) (dim : Option Nat)
  | closeEdge (e : Nm)
  | fixEdge (e : Nm) (vals : List Nat) (changeFix : Bool)
  | fixIndex (i v : Nat)
  | fix
  | mergeEdges (es : List Nm) (mergeTo dflt : Option Nm)
  | rewire (n : Nm) (leg : Nat) (dest : Option Nm)
  | encapsulate (ns opn : List Nm) (name : Option Nm) (ident : Nm)

/-- Forget the returned value. -/
def Res.unit {τ α : Type} (r : Res τ α) : Res τ Unit :=
  (r.1, match r.2 with | .ok _ => .ok () | .error e => .error e)

/-- One editing call (the methods cited at the individual functions). -/
def TN.step {τ : Type} [NetTensor τ] (tn : TN τ) : Op τ → Res τ Unit
  | .addNode name ident edges t isOpen => (tn.addNode name ident edges t isOpen).unit
  | .popNode n => (tn.popNode n).unit
  | .removeNode n => (tn.removeNode n).unit
  | .updateNode n t => tn.updateNode n t
  | .addEdge name dim => (tn.addEdge name dim).unit
  | .openEdge e dim => tn.openEdge e dim
  | .closeEdge e => (tn.closeEdge e, .ok ())
  | .fixEdge e vals cf => tn.fixEdge e vals cf
  | .fixIndex i v => tn.fixIndex i v
  | .fix => (tn.fixAll, .ok ())
  | .mergeEdges es m d => (tn.mergeEdges es m d).unit
  | .rewire n leg dest => tn.rewire n leg dest
  | .encapsulate ns opn name ident => (tn.encapsulate ns opn name ident).unit

/-- A history of calls in which every call succeeds (`none`: some call raised). -/
def TN.run {τ : Type} [NetTensor τ] : TN τ → List (Op τ) → Option (TN τ)
  | tn, [] => some tn
  | tn, op :: ops =>
    match tn.step op with
    | (tn', .ok ()) => tn'.run ops
    | (_, .error _) => none

end Verif
