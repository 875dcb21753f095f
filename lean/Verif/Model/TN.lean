import Verif.Base.Dict
import Verif.Base.Name
/-!
# Model of `TensorNetwork` (acqdp/tensor_network/tensor_network.py): state and edits

The networkx graph is bipartite: graph nodes `(0, name)` are tensor nodes and `(1, name)` are
hyperedges.  The model keeps the two kinds in two dictionaries (each in insertion order) and the graph
edges as a duplicate-free list of (node, edge) pairs in insertion order, so that `network[(0, n)]` and
`network[(1, e)]` are its two projections.

Not modelled: `dtype`, `signature`/`refresh_signature`, names equal to `None`, negative Python indices.
-/

namespace Verif

/-- Python exception classes raised by the modelled code. -/
inductive Err where
  | value | key | index | assertion | type | attribute | runtime
  deriving DecidableEq, Repr

/-- Attributes of a graph node `(0, name)`: `edges` (tensor_network.py:326) and `tensor` (:386, absent
until `update_node` has run).  `frozen` records that `edges` is a `range` object (:321), which does not
support item assignment. -/
structure NodeRec (τ : Type) where
  legs : List Nm
  ten : Option τ
  frozen : Bool := false
  deriving DecidableEq, Repr

/-- Attributes of a graph node `(1, name)`: `dim` (tensor_network.py:408) and the optional `fix_to`
(:458-462). -/
structure EdgeRec where
  dim : Option Nat
  fix : Option (List Nat) := none
  deriving DecidableEq, Repr

/-- tensor_network.py:28-42: the attributes of a `TensorNetwork`. -/
structure TN (τ : Type) where
  nodes : Dict Nm (NodeRec τ) := []
  edges : Dict Nm EdgeRec := []
  adj : List (Nm × Nm) := []
  openE : List Nm := []
  idCount : Nat := 0
  deriving DecidableEq, Repr

/-- The `shape` property of tensor-valued objects (`None` for a `Tensor` without data; entries may be
`None` for networks with wildcard edges). -/
class HasShape (τ : Type) where
  shape : τ → Option (List (Option Nat))

/-- A mutating method: the state left behind and the value or exception. -/
abbrev Res (τ α : Type) := TN τ × Except Err α

/-- A `for` loop over mutating calls; an exception stops the loop and keeps the state reached. -/
def forLoop {S A : Type} (f : S → A → S × Except Err Unit) : List A → S → S × Except Err Unit
  | [], s => (s, .ok ())
  | x :: xs, s =>
    match f s x with
    | (s', .ok ()) => forLoop f xs s'
    | (s', .error e) => (s', .error e)

namespace TN

variable {τ : Type}

/-- `list(network[(0, n)])` -/
def adjOfNode (tn : TN τ) (n : Nm) : List Nm := (tn.adj.filter (·.1 = n)).map Prod.snd

/-- `list(network[(1, e)])` -/
def adjOfEdge (tn : TN τ) (e : Nm) : List Nm := (tn.adj.filter (·.2 = e)).map Prod.fst

/-- networkx `add_edge((0, n), (1, e))`: no effect if present. -/
def addAdj (l : List (Nm × Nm)) (p : Nm × Nm) : List (Nm × Nm) := if p ∈ l then l else l ++ [p]

/-- networkx `add_edges_from`. -/
def addAdjs (l : List (Nm × Nm)) (ps : List (Nm × Nm)) : List (Nm × Nm) := ps.foldl addAdj l

/-- tensor_network.py:138-141: `shape` (`none` models the `KeyError` of an open edge that does not exist). -/
def shape? (tn : TN τ) : Option (List (Option Nat)) :=
  tn.openE.mapM fun e => (tn.edges.get? e).map EdgeRec.dim

/-- tensor_network.py:200-206: `e in closed_edges_by_name` -/
def isClosed (tn : TN τ) (e : Nm) : Bool := tn.edges.has e && !(tn.openE.contains e)

/-- tensor_network.py:208-221: `e in edges_by_name_from_nodes_by_name(ns)` (through the graph). -/
def edgeOfNodes (tn : TN τ) (ns : List Nm) (e : Nm) : Bool := tn.adj.any fun p => ns.contains p.1 && p.2 == e

/-- tensor_network.py:235-246: `n in nodes_by_name_from_edges_by_name(es)` (through the graph). -/
def nodeOfEdges (tn : TN τ) (es : List Nm) (n : Nm) : Bool := tn.adj.any fun p => es.contains p.2 && p.1 == n

/-- tensor_network.py:268-289, body of the loop of `update_dimension`. -/
def updateDim1 (tn : TN τ) (p : Nm × Option Nat) : Res τ Unit :=
  match tn.edges.get? p.1 with
  | none => (tn, .error .value)
  | some r =>
    match r.dim with
    | none => ({ tn with edges := tn.edges.set p.1 { r with dim := p.2 } }, .ok ())
    | some d =>
      match p.2 with
      | none => (tn, .ok ())
      | some d' => if d = d' then (tn, .ok ()) else (tn, .error .assertion)

/-- tensor_network.py:268-289: `update_dimension`. -/
def updateDimension (tn : TN τ) (dic : Dict Nm (Option Nat)) : Res τ Unit := forLoop updateDim1 dic tn

/-- tensor_network.py:407-411: `add_edge` once the name is known. -/
def addEdgeNamed (tn : TN τ) (e : Nm) (dim : Option Nat) : Res τ Nm :=
  if tn.edges.has e then
    if dim.isSome then
      match tn.updateDimension [(e, dim)] with
      | (tn', .ok ()) => (tn', .ok e)
      | (tn', .error er) => (tn', .error er)
    else (tn, .ok e)
  else ({ tn with edges := tn.edges.set e { dim := dim } }, .ok e)

/-- tensor_network.py:393-411: `add_edge`; `none` as name: automatically assigned `"_k"`. -/
def addEdge (tn : TN τ) (name : Option Nm) (dim : Option Nat) : Res τ Nm :=
  match name with
  | none => addEdgeNamed { tn with idCount := tn.idCount + 1 } (Nm.str ("_" ++ toString tn.idCount)) dim
  | some e => tn.addEdgeNamed e dim

/-- tensor_network.py:413-424: `open_edge` with a given name. -/
def openEdge (tn : TN τ) (e : Nm) (dim : Option Nat) : Res τ Unit :=
  if tn.edges.has e then ({ tn with openE := tn.openE ++ [e] }, .ok ())
  else
    match tn.addEdge (some e) dim with
    | (tn', .ok _) => ({ tn' with openE := tn'.openE ++ [e] }, .ok ())
    | (tn', .error er) => (tn', .error er)

/-- tensor_network.py:426-435: `close_edge`. -/
def closeEdge (tn : TN τ) (e : Nm) : TN τ := { tn with openE := tn.openE.filter (· ≠ e) }

/-- tensor_network.py:340-352: `pop_node`. -/
def popNode (tn : TN τ) (n : Nm) : Res τ (NodeRec τ) :=
  match tn.nodes.get? n with
  | none => (tn, .error .key)
  | some r => ({ tn with nodes := tn.nodes.del n, adj := tn.adj.filter (·.1 ≠ n) }, .ok r)

/-- tensor_network.py:354-367: `remove_node`. -/
def removeNode (tn : TN τ) (n : Nm) : Res τ (NodeRec τ) :=
  match tn.popNode n with
  | (tn', .ok r) => ({ tn' with openE := tn'.openE ++ r.legs }, .ok r)
  | (tn', .error e) => (tn', .error e)

/-- tensor_network.py:389: the dictionary `{edge: shape[i] for i, edge in enumerate(edges)}`; `none`
models the `IndexError` of `shape[i]`. A repeated edge keeps its first position and its last value. -/
def legDims (legs : List Nm) (shape : List (Option Nat)) : Option (Dict Nm (Option Nat)) :=
  if legs.length ≤ shape.length then
    some ((legs.zip shape).foldl (fun d p => d.set p.1 p.2) [])
  else none

/-- tensor_network.py:369-391: `update_node`. -/
def updateNode [HasShape τ] (tn : TN τ) (n : Nm) (t : τ) : Res τ Unit :=
  match tn.nodes.get? n with
  | none => (tn, .error .key)
  | some r =>
    let tn1 : TN τ := { tn with nodes := tn.nodes.set n { r with ten := some t } }
    match HasShape.shape t with
    | none => tn1.updateDimension (r.legs.foldl (fun d e => d.set e none) [])
    | some sh =>
      match legDims r.legs sh with
      | none => (tn1, .error .index)
      | some dic => tn1.updateDimension dic

/-- `shape[i]` of a tensor (`none`: `IndexError`; unknown shape: dimension unknown),
tensor_network.py:328-330, 582-584. -/
def dimAt (shape : Option (List (Option Nat))) (i : Nat) : Option (Option Nat) :=
  match shape with
  | none => some none
  | some sh => sh[i]?

/-- tensor_network.py:327-331: the loop adding the edges of a new node. -/
def addNodeEdges (tn : TN τ) (shape : Option (List (Option Nat))) (i : Nat) : List Nm → Res τ Unit
  | [] => (tn, .ok ())
  | e :: es =>
    match dimAt shape i with
    | none => (tn, .error .index)
    | some dim =>
      match tn.addEdge (some e) dim with
      | (tn', .ok _) => addNodeEdges tn' shape (i + 1) es
      | (tn', .error er) => (tn', .error er)

/-- tensor_network.py:334-336: opening the edges of a new node. -/
def openAll (tn : TN τ) (es : List Nm) : Res τ Unit := forLoop (fun t e => openEdge t e none) es tn

/-- tensor_network.py:319-325: the legs of a new node (`none`: `IndexError`, connection ambiguous), and
whether they are stored as a `range`. -/
def newLegs (edges : Option (List Nm)) (shape : Option (List (Option Nat))) : Option (List Nm × Bool) :=
  match edges with
  | some es => some (es, false)
  | none =>
    match shape with
    | some sh => some ((List.range sh.length).map fun i : Nat => Nm.int i, true)
    | none => none

/-- tensor_network.py:326: `network.add_node((0, n), edges=es)`; an existing node keeps its tensor. -/
def putNode (tn : TN τ) (n : Nm) (es : List Nm) (frozen : Bool) : TN τ :=
  { tn with
    nodes := tn.nodes.set n { legs := es, ten := (tn.nodes.get? n).bind NodeRec.ten, frozen := frozen } }

/-- tensor_network.py:310: the name is given and taken. -/
def nameTaken (tn : TN τ) (name : Option Nm) : Bool :=
  match name with
  | some n => tn.nodes.has n
  | none => false

/-- tensor_network.py:291-338: `add_node`.  `name = none`: the automatic name `ident`
(`tensor.identifier`).  `edges = none`: the edges `0, 1, ...`, stored as a `range`. -/
def addNode [HasShape τ] (tn : TN τ) (name : Option Nm) (ident : Nm) (edges : Option (List Nm)) (t : τ)
    (isOpen : Bool) : Res τ Nm :=
  if tn.nameTaken name then (tn, .error .value)
  else
    let n := name.getD ident
    let shape := HasShape.shape t
    match newLegs edges shape with
    | none => (tn, .error .index)
    | some (es, frozen) =>
      let tn1 : TN τ := tn.putNode n es frozen
      match tn1.addNodeEdges shape 0 es with
      | (tn2, .error er) => (tn2, .error er)
      | (tn2, .ok ()) =>
        let tn3 : TN τ := { tn2 with adj := addAdjs tn2.adj (es.map fun e => (n, e)) }
        match tn3.updateNode n t with
        | (tn4, .error er) => (tn4, .error er)
        | (tn4, .ok ()) =>
          if isOpen then
            match tn4.openAll es with
            | (tn5, .ok ()) => (tn5, .ok n)
            | (tn5, .error er) => (tn5, .error er)
          else (tn4, .ok n)

/-- tensor_network.py:437-464: `fix_edge`.  `vals` lists the Python set `fix_to` (without repetition) in
its iteration order; intersecting keeps the order of the old list. -/
def fixEdge (tn : TN τ) (e : Nm) (vals : List Nat) (changeFix : Bool := false) : Res τ Unit :=
  match tn.edges.get? e with
  | none => (tn, .error .key)
  | some r =>
    match r.dim with
    | none => (tn, .error .type)
    | some d =>
      if vals.all (· < d) then
        match r.fix with
        | none => ({ tn with edges := tn.edges.set e { r with fix := some vals } }, .ok ())
        | some old =>
          if changeFix then
            match vals, old with
            | v :: _, _ :: rest =>
              ({ tn with edges := tn.edges.set e { r with fix := some (v :: rest) } }, .ok ())
            | _, _ => (tn, .error .index)
          else
            ({ tn with edges := tn.edges.set e { r with fix := some (old.filter (· ∈ vals)) } }, .ok ())
      else (tn, .error .assertion)

/-- tensor_network.py:466-472: `fix_index` (index counted from 0). -/
def fixIndex (tn : TN τ) (i v : Nat) : Res τ Unit :=
  match tn.openE[i]? with
  | none => (tn, .error .index)
  | some e =>
    match tn.fixEdge e [v] with
    | (tn', .ok ()) => ({ tn' with openE := tn'.openE.eraseIdx i }, .ok ())
    | (tn', .error er) => (tn', .error er)

/-- tensor_network.py:483: `[i for i in edges if i != e]` (a new list). -/
def dropLeg (e : Nm) (r : NodeRec τ) : NodeRec τ :=
  { legs := r.legs.filter (· ≠ e), ten := r.ten, frozen := false }

/-- tensor_network.py:480-487: body of the loop of `fix` for one edge. -/
def fix1 (tn : TN τ) (e : Nm) : TN τ :=
  match tn.edges.get? e with
  | some { dim := _, fix := some _ } =>
    let tn1 : TN τ := { tn with nodes := tn.nodes.mapIf (tn.nodeOfEdges [e]) (dropLeg e) }
    if e ∈ tn.openE then { tn1 with adj := tn1.adj.filter (·.2 ≠ e) }
    else { tn1 with edges := tn1.edges.del e, adj := tn1.adj.filter (·.2 ≠ e) }
  | _ => tn

/-- tensor_network.py:474-488: `fix`. -/
def fixAll (tn : TN τ) : TN τ := (tn.edges.keys).foldl fix1 tn

/-- tensor_network.py:548-549: passing the fix of a merged edge on. -/
def mergeFix (tn : TN τ) (mergeTo : Nm) (f : Option (List Nat)) : Res τ Unit :=
  match f with
  | some f => tn.fixEdge mergeTo f
  | none => (tn, .ok ())

/-- tensor_network.py:547-553: body of the loop of `merge_edges`. -/
def mergeStep (mergeTo : Nm) (tn : TN τ) (e : Nm) : Res τ Unit :=
  match tn.edges.get? e with
  | none => (tn, .error .key)
  | some r =>
    match tn.mergeFix mergeTo r.fix with
    | (tn1, .error er) => (tn1, .error er)
    | (tn1, .ok ()) =>
      let tn2 : TN τ := { tn1 with adj := addAdjs tn1.adj ((tn1.adjOfEdge e).map fun n => (n, mergeTo)) }
      if e = mergeTo then (tn2, .ok ())
      else ({ tn2 with edges := tn2.edges.del e, adj := tn2.adj.filter (·.2 ≠ e) }, .ok ())

/-- tensor_network.py:537-540: the dimension of the last listed edge (`none`: some edge is missing). -/
def mergeDim (tn : TN τ) : List Nm → Option Nat → Option (Option Nat)
  | [], d => some d
  | e :: es, _ =>
    match tn.edges.get? e with
    | none => none
    | some r => mergeDim tn es r.dim

/-- tensor_network.py:556-560: `[merge_to if i in edges else i for i in ...]` (a new list). -/
def renameLegs (es : List Nm) (m : Nm) (r : NodeRec τ) : NodeRec τ :=
  { legs := r.legs.map fun i => if i ∈ es then m else i, ten := r.ten, frozen := false }

/-- tensor_network.py:528-568: `merge_edges`.  `dflt` is what `sorted(edges)[-1]` gives (`none`: the sort
raises or the list is empty). -/
def mergeEdges (tn : TN τ) (es : List Nm) (mergeTo : Option Nm) (dflt : Option Nm) : Res τ Nm :=
  match tn.mergeDim es none with
  | none => (tn, .error .key)
  | some dim =>
    match mergeTo.or dflt with
    | none => (tn, .error .type)
    | some m =>
      let tn1 : TN τ := if mergeTo.isSome && !tn.edges.has m then (tn.addEdge (some m) none).1 else tn
      match tn1.updateDimension [(m, dim)] with
      | (tn2, .error er) => (tn2, .error er)
      | (tn2, .ok ()) =>
        let touched : Nm → Bool := tn2.nodeOfEdges es
        match forLoop (mergeStep m) es tn2 with
        | (tn3, .error er) => (tn3, .error er)
        | (tn3, .ok ()) =>
          let tn4 : TN τ := { tn3 with
            nodes := tn3.nodes.mapIf touched (renameLegs es m)
            openE := tn3.openE.map fun i => if i ∈ es then m else i }
          if tn4.openE.all tn4.edges.has then (tn4, .ok m) else (tn4, .error .assertion)

/-- tensor_network.py:586-587: the edge a leg is rewired to, created if needed. -/
def rewireTarget (tn : TN τ) (dest : Option Nm) (dim : Option Nat) : Res τ Nm :=
  match dest with
  | some m => if tn.edges.has m then (tn, .ok m) else tn.addEdge (some m) dim
  | none => tn.addEdge none dim

/-- tensor_network.py:570-592: `rewire`; `dest = none`: a newly created edge. -/
def rewire [HasShape τ] (tn : TN τ) (n : Nm) (leg : Nat) (dest : Option Nm) : Res τ Unit :=
  match tn.nodes.get? n with
  | none => (tn, .error .key)
  | some r =>
    match r.ten with
    | none => (tn, .error .key)
    | some t =>
      match dimAt (HasShape.shape t) leg, r.legs[leg]? with
      | some dim, some e =>
        match tn.rewireTarget dest dim with
        | (tn1, .error er) => (tn1, .error er)
        | (tn1, .ok m) =>
          if r.frozen then (tn1, .error .type)
          else
            let legs' := r.legs.set leg m
            let tn2 : TN τ := { tn1 with
              nodes := tn1.nodes.set n { r with legs := legs' }
              adj := addAdj tn1.adj (n, m) }
            if e ∈ legs' then (tn2, .ok ())
            else if (n, e) ∈ tn2.adj then
              ({ tn2 with adj := tn2.adj.filter (· ≠ (n, e)) }, .ok ())
            else (tn2, .error .value)
      | _, _ => (tn, .error .index)

end TN

end Verif
