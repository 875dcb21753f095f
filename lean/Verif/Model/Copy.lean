import Verif.Model.Ops
/-!
# Model of `copy` and of the lists that copies share (acqdp/tensor_network/tensor_network.py:739-753)

`networkx.Graph.copy` copies the attribute dictionaries of graph nodes, not the attribute values.  The attributes
`edges` of the nodes and `fix_to` of the edges are Python lists, so a copy refers to the same list objects as the
original.  Here an object refers to cells of a store that hold these lists.  The new state of an object after an edit
is that of the model of the methods (`TN.step`); what is added is in which cells the lists of the new state are: an
assignment `...['edges'] = [...]` or `...['fix_to'] = [...]` puts a new list object there, the statements
`...['edges'][leg] = ...` and `...['fix_to'][0] = ...` write into the old one.

Tensors at nodes are values in this model: editing a network that is a node of another network is not covered.
-/

namespace Verif

/-- The list objects. -/
structure Store where
  legs : List (List Nm) := []
  fixes : List (List Nat) := []
  deriving DecidableEq, Repr

/-- Attributes of a graph node `(0, name)`, with a reference to the list `edges`. -/
structure HNode (τ : Type) where
  ref : Nat
  ten : Option τ
  frozen : Bool := false
  deriving DecidableEq, Repr

/-- Attributes of a graph node `(1, name)`, with a reference to the list `fix_to` if there is one. -/
structure HEdge where
  dim : Option Nat
  fix : Option Nat := none
  deriving DecidableEq, Repr

/-- tensor_network.py:28-42: a `TensorNetwork` object in the store. -/
structure HTN (τ : Type) where
  nodes : Dict Nm (HNode τ) := []
  edges : Dict Nm HEdge := []
  adj : List (Nm × Nm) := []
  openE : List Nm := []
  idCount : Nat := 0
  deriving DecidableEq, Repr

/-- What is done to a list attribute: nothing, a new list object is assigned, or its list object is written to. -/
inductive Write where
  | keep | fresh | inPlace
  deriving DecidableEq, Repr

variable {τ : Type}

/-- The network that an object is. -/
def HTN.view (h : Store) (o : HTN τ) : TN τ where
  nodes := o.nodes.map fun p => (p.1, ⟨(h.legs[p.2.ref]?).getD [], p.2.ten, p.2.frozen⟩)
  edges := o.edges.map fun p => (p.1, ⟨p.2.dim, p.2.fix.map fun x => (h.fixes[x]?).getD []⟩)
  adj := o.adj
  openE := o.openE
  idCount := o.idCount

/-- tensor_network.py:739-745: `copy`: a new list of open edges, the same lists `edges` and `fix_to`; the counter of
automatic edge names starts again (:41). -/
def HTN.copy (o : HTN τ) : HTN τ := { o with idCount := 0 }

namespace TN

/-- tensor_network.py:325-326: `add_node` assigns a new list (`list(edges)`, or a `range`) unless it raises before. -/
def addWrite [HasShape τ] (tn : TN τ) (name : Option Nm) (ident : Nm) (edges : Option (List Nm)) (t : τ) (n : Nm) : Write :=
  if n = name.getD ident ∧ tn.nameTaken name = false ∧ (newLegs edges (HasShape.shape t)).isSome then .fresh else .keep

/-- tensor_network.py:535-545: the state of `merge_edges` when its loop starts (`none`: an exception was raised). -/
def mergeStart (tn : TN τ) (es : List Nm) (mergeTo dflt : Option Nm) : Option (Nm × TN τ) :=
  match tn.mergeDim es none with
  | none => none
  | some dim =>
    match mergeTo.or dflt with
    | none => none
    | some m =>
      let tn1 : TN τ := if mergeTo.isSome && !tn.edges.has m then (tn.addEdge (some m) none).1 else tn
      match tn1.updateDimension [(m, dim)] with
      | (_, .error _) => none
      | (tn2, .ok ()) => some (m, tn2)

/-- tensor_network.py:547-549: whether the loop of `merge_edges` calls `fix_edge` with success. -/
def mergeFixed (m : Nm) : List Nm → TN τ → Bool
  | [], _ => false
  | e :: es, tn =>
    match tn.edges.get? e with
    | none => false
    | some r =>
      match tn.mergeFix m r.fix with
      | (_, .error _) => false
      | (_, .ok ()) => r.fix.isSome || mergeFixed m es (mergeStep m tn e).1

/-- What an edit does to the list `edges` of the node `n`.

* `add_node`: tensor_network.py:325-326; `encapsulate`: the same for the new node (:673).
* `fix`: :482-483, a new list for the nodes of fixed edges.
* `merge_edges`: :555-560, a new list for the nodes of the merged edges, after the loop.
* `rewire`: :588, in place. -/
def legWrite [NetTensor τ] (tn : TN τ) (n : Nm) : Op τ → Write
  | .addNode name ident edges t _ => tn.addWrite name ident edges t n
  | .encapsulate ns opn name ident =>
    match tn.subtn ns opn with
    | .error _ => .keep
    | .ok stn => (tn.dropSub ns (tn.closedOfNodes ns)).addWrite name ident (some stn.openE) (NetTensor.ofNet stn) n
  | .fix => if tn.adj.any (fun p => p.1 == n && ((tn.edges.get? p.2).bind EdgeRec.fix).isSome) then .fresh else .keep
  | .mergeEdges es m d =>
    match tn.mergeStart es m d with
    | none => .keep
    | some (m, tn2) =>
      match forLoop (mergeStep m) es tn2 with
      | (_, .error _) => .keep
      | (_, .ok ()) => if tn2.nodeOfEdges es n then .fresh else .keep
  | .rewire n' _ _ => if n = n' then .inPlace else .keep
  | _ => .keep

/-- tensor_network.py:456-462: what `fix_edge` does to the list `fix_to` of its edge. -/
def fixWrite1 (tn : TN τ) (e : Nm) (vals : List Nat) (changeFix : Bool) : Write :=
  match tn.fixEdge e vals changeFix with
  | (_, .error _) => .keep
  | (_, .ok ()) => if changeFix ∧ ((tn.edges.get? e).bind EdgeRec.fix).isSome then .inPlace else .fresh

/-- What an edit does to the list `fix_to` of the edge `e`.

* `fix_edge`: tensor_network.py:456-462; `fix_index`: the same (:469).
* `merge_edges`: :549, for the edge merged to. -/
def fixWrite (tn : TN τ) (e : Nm) : Op τ → Write
  | .fixEdge e' vals cf => if e = e' then tn.fixWrite1 e' vals cf else .keep
  | .fixIndex i v =>
    match tn.openE[i]? with
    | none => .keep
    | some e' => if e = e' then tn.fixWrite1 e' [v] false else .keep
  | .mergeEdges es m d =>
    match tn.mergeStart es m d with
    | none => .keep
    | some (m, tn2) => if e = m ∧ mergeFixed m es tn2 then .fresh else .keep
  | _ => .keep

end TN

/-- The cell that holds the list `v` afterwards. -/
def cellFor {α : Type} (H : List α) : Write → Option Nat → α → Nat × List α
  | .keep, some x, _ => (x, H)
  | .inPlace, some x, v => (x, H.set x v)
  | _, _, v => (H.length, H ++ [v])

/-- The cells for several lists: for each what is done to it, the old reference if there is one, and the new
contents. -/
def cellsFor {α : Type} : List (Option (Write × Option Nat × α)) → List α → List (Option Nat) × List α
  | [], H => ([], H)
  | none :: l, H => (none :: (cellsFor l H).1, (cellsFor l H).2)
  | some (w, o, v) :: l, H =>
    let c := cellFor H w o v
    (some c.1 :: (cellsFor l c.2).1, (cellsFor l c.2).2)

/-- One editing call on an object. -/
def HTN.step [NetTensor τ] (h : Store) (o : HTN τ) (op : Op τ) : Store × HTN τ :=
  let tn := o.view h
  let tn' := (tn.step op).1
  let L := cellsFor (tn'.nodes.map fun p => some (tn.legWrite p.1 op, (o.nodes.get? p.1).map HNode.ref, p.2.legs)) h.legs
  let F := cellsFor (tn'.edges.map fun p => p.2.fix.map fun f => (tn.fixWrite p.1 op, (o.edges.get? p.1).bind HEdge.fix, f)) h.fixes
  (⟨L.2, F.2⟩,
   { nodes := List.zipWith (fun p x => (p.1, ⟨x.getD 0, p.2.ten, p.2.frozen⟩)) tn'.nodes L.1
     edges := List.zipWith (fun p x => (p.1, ⟨p.2.dim, x⟩)) tn'.edges F.1
     adj := tn'.adj
     openE := tn'.openE
     idCount := tn'.idCount })

/-- A network in new list objects. -/
def Store.put (h : Store) (tn : TN τ) : Store × HTN τ :=
  let L := cellsFor (tn.nodes.map fun p => some (Write.fresh, none, p.2.legs)) h.legs
  let F := cellsFor (tn.edges.map fun p => p.2.fix.map fun f => (Write.fresh, none, f)) h.fixes
  (⟨L.2, F.2⟩,
   { nodes := List.zipWith (fun p x => (p.1, ⟨x.getD 0, p.2.ten, p.2.frozen⟩)) tn.nodes L.1
     edges := List.zipWith (fun p x => (p.1, ⟨p.2.dim, x⟩)) tn.edges F.1
     adj := tn.adj
     openE := tn.openE
     idCount := tn.idCount })

/-- tensor_network.py:750-751: one round of the loop of `__deepcopy__`. -/
def deepStep [HasShape τ] (tn : TN τ) (p : Nm × NodeRec τ) : Res τ Unit :=
  match p.2.ten with
  | none => (tn, .error .key)
  | some t => tn.updateNode p.1 t

/-- tensor_network.py:747-753: `__deepcopy__`: all lists are copied, then `update_node` is called with a copy of the
tensor for every node. -/
def HTN.deepcopy [HasShape τ] (h : Store) (o : HTN τ) : Store × Except Err (HTN τ) :=
  match forLoop deepStep (o.view h).nodes { o.view h with idCount := 0 } with
  | (_, .error e) => (h, .error e)
  | (tn, .ok ()) => ((h.put tn).1, .ok (h.put tn).2)

/-- Two objects and the store. -/
structure World (τ : Type) where
  store : Store
  fst : HTN τ
  snd : HTN τ

/-- An editing call on one of the objects. -/
def World.step [NetTensor τ] (w : World τ) : Bool × Op τ → World τ
  | (true, op) => ⟨(w.fst.step w.store op).1, (w.fst.step w.store op).2, w.snd⟩
  | (false, op) => ⟨(w.snd.step w.store op).1, w.fst, (w.snd.step w.store op).2⟩

/-- A sequence of editing calls on the two objects; calls that raise keep the state reached. -/
def World.run [NetTensor τ] (w : World τ) (l : List (Bool × Op τ)) : World τ := l.foldl World.step w

end Verif
