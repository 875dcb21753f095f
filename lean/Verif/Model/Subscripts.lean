import Verif.Spec.Subscripts
import Verif.Model.Patch
/-!
# Model of `TensorNetwork.subscripts` and `OrderResolver.order_to_subscripts` (tensor_network.py:725-737, local_optimizer.py:76-90)

A letter `opt_einsum.get_symbol(i)` is the number `i` (the function is injective).  `perm` lists a python set in some order, as in Model/Patch.
-/

namespace Verif

variable {τ : Type}

namespace TN

/-- tensor_network.py:728: the edges that are not fixed. -/
def freeEdges (tn : TN τ) : List Nm := tn.edges.keys.filter fun e => ((tn.edges.get? e).bind EdgeRec.fix).isNone

/-- tensor_network.py:732-733, 736: the letters of a list of edges. -/
def lettersOf (tn : TN τ) (es : List Nm) : List Nat := (es.filter fun e => tn.freeEdges.contains e).map fun e => tn.freeEdges.idxOf e

/-- tensor_network.py:734-735: the dimensions of a list of edges, 2 if not known. -/
def dimsOf (tn : TN τ) (es : List Nm) : List Nat :=
  (es.filter fun e => tn.freeEdges.contains e).map fun e => ((tn.edges.get? e).bind EdgeRec.dim).getD 2

/-- tensor_network.py:725-737: `subscripts(nodes)` with the list of nodes given. -/
def subscripts (tn : TN τ) (ns : List Nm) : Except Err Subs :=
  if ns.all tn.nodes.has then
    .ok
      { lhs := ns.map fun n => tn.lettersOf (((tn.nodes.get? n).map fun r => r.legs).getD [])
        rhs := tn.lettersOf tn.openE
        shapes := ns.map fun n => tn.dimsOf (((tn.nodes.get? n).map fun r => r.legs).getD []) }
  else .error .key

end TN

/-- local_optimizer.py:79-87: the loop over the order; gives the network left, too. -/
def subsLoop [NetTensor τ] (perm : List Nm → List Nm) : List OrderStep → TN τ → Except Err (List Subs × TN τ)
  | [], tn => .ok ([], tn)
  | (xs, z) :: o, tn =>
    if z = .str "#" then .ok ([], tn)
    else
      match tn.subtn xs (perm (tn.boundaryOfNodes xs)), tn.encapsulate xs (perm (tn.boundaryOfNodes xs)) (some z) z with
      | .error e, _ => .error e
      | .ok _, (_, .error e) => .error e
      | .ok stn, (tn', .ok _) =>
        match stn.subscripts xs with
        | .error e => .error e
        | .ok s =>
          match subsLoop perm o tn' with
          | .error e => .error e
          | .ok (l, tn2) => .ok (s :: l, tn2)

/-- local_optimizer.py:76-90: `order_to_subscripts`. -/
def orderToSubs [NetTensor τ] (perm : List Nm → List Nm) (tn : TN τ) (order : List OrderStep) : Except Err (List Subs) :=
  match subsLoop perm order tn with
  | .error e => .error e
  | .ok (l, tn') =>
    match order.getLast? with
    | none => .ok l
    | some o =>
      match tn'.subscripts o.1 with
      | .error e => .error e
      | .ok s => .ok (l ++ [s])

end Verif
