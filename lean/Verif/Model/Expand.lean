import Verif.Model.Value
/-!
# Model of `TensorNetwork.expand` (acqdp/tensor_network/tensor_network.py:594-633)
-/

namespace Verif

/-- tensor_network.py:257-261: `att` or `name` as a tuple: a tuple is itself, anything else a tuple of one entry. -/
def Nm.tup : Nm → List Nm
  | .int i => [.int i]
  | .str s => [.str s]
  | .nil => []
  | .cons a b => a :: b.tup

/-- The tuple with the given entries (no code: tuples as names). -/
def Nm.ofList : List Nm → Nm
  | [] => .nil
  | a :: l => .cons a (Nm.ofList l)

/-- tensor_network.py:256-261: `comb_name`. -/
def Nm.comb (att name : Nm) : Nm := Nm.ofList (att.tup ++ name.tup)

/-- networkx `add_node` with attributes: the attributes of an existing graph node are updated. -/
def Dict.put {K V : Type} [DecidableEq K] (over : V → V → V) (d : Dict K V) (k : K) (v : V) : Dict K V :=
  match d.get? k with
  | some old => d.set k (over v old)
  | none => d.set k v

/-- The attributes of a tensor node after an update by those of `new` (`tensor` may be absent). -/
def NodeRec.over {τ : Type} (new old : NodeRec τ) : NodeRec τ := ⟨new.legs, new.ten.or old.ten, new.frozen⟩

/-- The attributes of an edge after an update by those of `new` (`fix_to` may be absent). -/
def EdgeRec.over (new old : EdgeRec) : EdgeRec := ⟨new.dim, new.fix.or old.fix⟩

namespace TN

variable {τ : Type}

/-- Two networks in one graph: networkx `add_nodes_from(t.network.nodes(data=True))` and
`add_edges_from(t.network.edges)` (tensor_network.py:624-625). -/
def graft (tn t : TN τ) : TN τ :=
  { tn with
    nodes := t.nodes.foldl (fun d p => d.put NodeRec.over p.1 p.2) tn.nodes
    edges := t.edges.foldl (fun d p => d.put EdgeRec.over p.1 p.2) tn.edges
    adj := addAdjs tn.adj t.adj }

/-- tensor_network.py:250-266: `add_attribute_to_names`.  Simplification: if new names coincide with old ones, networkx
renames in another order, which changes the order of the nodes only. -/
def addAttr (tn : TN τ) (att : Nm) : TN τ :=
  { graft {} { tn with
      nodes := tn.nodes.map fun p => (att.comb p.1, { legs := p.2.legs.map att.comb, ten := p.2.ten, frozen := false })
      edges := tn.edges.map fun p => (att.comb p.1, p.2)
      adj := tn.adj.map fun p => (att.comb p.1, att.comb p.2) } with
    openE := tn.openE.map att.comb, idCount := tn.idCount }

/-- What is left open by the code: `networkx.connected_components` of the graph with the given links, as lists in any
order, and `sorted(...)[-1]` (`none`: the names cannot be compared, `TypeError`). -/
structure Glue where
  comps : List (Nm × Nm) → List (List Nm)
  last : List Nm → Option Nm

/-- tensor_network.py:629-631: the body of the loop over the components. -/
def glue1 (G : Glue) (legs : List Nm) (tn : TN τ) (ls : List Nm) : Res τ Unit :=
  match G.last (ls.filter (· ∈ legs)) with
  | none => (tn, .error .type)
  | some m =>
    match tn.mergeEdges ls (some m) none with
    | (tn', .ok _) => (tn', .ok ())
    | (tn', .error e) => (tn', .error e)

/-- tensor_network.py:620-631: putting network `t` (renamed) in the place of a popped node with the given legs. -/
def insertNet (G : Glue) (tn t : TN τ) (legs : List Nm) : Res τ Unit :=
  if legs.length < t.openE.length then (tn.graft t, .error .index)
  else forLoop (glue1 G legs) (G.comps (legs.zip t.openE)) (tn.graft t)

end TN

namespace TVal

variable {R : Type}

/-- tensor_network.py:615-631: the body of the loop over the nodes, `rec` being `expand(recursive=True)`.
A node holding a view raises: `self.nodes_by_name[node_name]` (:617) indexes a list of names with a name
(`TypeError`; `IndexError` for a number beyond the list). -/
def expandNode (G : TN.Glue) (rec : TN (TVal R) → Res (TVal R) Unit) (tn : TN (TVal R)) (n : Nm) : Res (TVal R) Unit :=
  match tn.nodes.get? n with
  | none => (tn, .error .key)
  | some r =>
    match r.ten with
    | none => (tn, .error .key)
    | some (.view _) => (tn, .error .type)
    | some (.net ns es adj op _) =>
      match tn.popNode n with
      | (tn1, .error e) => (tn1, .error e)
      | (tn1, .ok pop) =>
        match rec ⟨ns, es, adj, op, 0⟩ with
        | (_, .error e) => (tn1, .error e)
        | (t, .ok ()) => tn1.insertNet G (t.addAttr n) pop.legs
    | some _ => (tn, .ok ())

/-- tensor_network.py:594-633: `expand()`, with a bound on the nesting depth (Python's recursion limit).  The
comparison passed to `sorted` (:603-614) never returns a negative number, so the nodes are visited in the order of the
dictionary. -/
def expand (G : TN.Glue) : Nat → TN (TVal R) → Res (TVal R) Unit
  | 0, tn => (tn, .error .runtime)
  | k + 1, tn => forLoop (expandNode G (expand G k)) tn.nodes.keys tn

end TVal

end Verif
