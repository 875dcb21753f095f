import Verif.Model.Orders
import Verif.Model.Ops
/-!
# Model of the hypergraph order finder
(acqdp/tensor_network/kahypar_order_finder.py, and `tanner_graph`, `simplify` of tensor_network.py)

The KaHyPar partitioner is a parameter: it gives a block number to each node of a hypergraph, in any way it likes.
So are the paths opt_einsum finds and the costs it computes.  The CMA search only chooses parameters of the
partitioner and is left out, as is multi-processing.
-/

namespace Verif

/-! ## Simplifying -/

/-- `itertools.combinations(l, 2)` (kahypar_order_finder.py:93, tensor_network.py:691). -/
def combos2 {α : Type} : List α → List (α × α)
  | [] => []
  | x :: l => l.map (fun y => (x, y)) ++ combos2 l

/-- kahypar_order_finder.py:94-101 and tensor_network.py:692-696: merging the two nodes gives no more legs than the
larger one has (edges with no other node are taken to disappear). -/
def TN.shrinks {τ : Type} (tn : TN τ) (p : Nm × Nm) : Bool :=
  let s0 := tn.adjOfNode p.1
  let s1 := tn.adjOfNode p.2
  let gone := (s0.filter fun e => s1.contains e && (tn.adjOfEdge e).length == 2).length
  decide ((s0 ++ s1.filter fun e => !(s0.contains e)).length - gone ≤ max s0.length s1.length)

/-- kahypar_order_finder.py:91-110 and tensor_network.py:689-696: the first pair of neighbours worth merging. -/
def TN.mergeable {τ : Type} (tn : TN τ) : Option (Nm × Nm) :=
  tn.edges.keys.findSome? fun e => (combos2 (tn.adjOfEdge e)).find? tn.shrinks

/-- kahypar_order_finder.py:85-111: `_simplify`; each round merges one pair, so that `fuel` can be the number of
nodes.  `none` is an exception of `encapsulate`.  Gives the network left, the order and the counter. -/
def khpSimplify {τ : Type} [NetTensor τ] : Nat → TN τ → Int → Option (TN τ × List OrderStep × Int)
  | 0, tn, k => some (tn, [], k)
  | fuel + 1, tn, k =>
    match tn.mergeable with
    | none => some (tn, [], k)
    | some (a, b) =>
      match tn.encapsulate [a, b] (tn.boundaryOfNodes [a, b]) (some (freshName k)) (freshName k) with
      | (_, .error _) => none
      | (tn', .ok n) => (khpSimplify fuel tn' (k + 1)).map fun r => (r.1, ([a, b], n) :: r.2.1, r.2.2)

/-- tensor_network.py:685-702: `simplify(recursive=True)`; the new nodes get automatic names (`ident` gives the name of
the round). -/
def TN.simplify {τ : Type} [NetTensor τ] (ident : Nat → Nm) : Nat → Nat → TN τ → Option (TN τ)
  | 0, _, tn => some tn
  | fuel + 1, i, tn =>
    match tn.mergeable with
    | none => some tn
    | some (a, b) =>
      match tn.encapsulate [a, b] (tn.boundaryOfNodes [a, b]) none (ident i) with
      | (_, .error _) => none
      | (tn', .ok _) => TN.simplify ident fuel (i + 1) tn'

/-! ## Incidence matrices -/

/-- Rows of booleans; row 0 stands for the outside, the others for the nodes. -/
abbrev Tanner := List (List Bool)

/-- kahypar_order_finder.py:243: `graph.shape[1]`. -/
def Tanner.cols (g : Tanner) : Nat := (g.headD []).length

/-- tensor_network.py:708-723: `tanner_graph`, made dense (kahypar_order_finder.py:35-36).  scipy takes the number of rows
from the largest row with an entry, and raises `ValueError` if there is no entry at all.  (Columns without entries at
the end are cut off as well; `_refresh` drops them anyway.) -/
def TN.tanner {τ : Type} (tn : TN τ) : Option (Tanner × List Nm) :=
  let free := fun e => ((tn.edges.get? e).bind EdgeRec.fix).isNone
  let es := tn.openE.filter free ++ (tn.edges.keys.filter tn.isClosed).filter free
  let row := fun (legs : List Nm) => es.zipIdx.map fun p => legs.contains p.1 && es.idxOf p.1 == p.2
  let rows := (es.map fun e => tn.openE.contains e) :: tn.nodes.map fun q => row q.2.legs
  match (rows.reverse.dropWhile fun r => !(r.any id)).reverse with
  | [] => none
  | g => some (g, tn.nodes.keys)

/-- kahypar_order_finder.py:255-256: `_refresh` drops the columns without entries. -/
def Tanner.refresh (g : Tanner) : Tanner :=
  let keep := (List.range g.cols).filter fun j => g.any fun r => r.getD j false
  g.map fun r => keep.map fun j => r.getD j false

/-- kahypar_order_finder.py:235: `numpy.any(rows, axis=0)` for a matrix with `n` columns. -/
def anyRow (n : Nat) (rows : List (List Bool)) : List Bool :=
  (List.range n).map fun j => rows.any fun r => r.getD j false

/-- kahypar_order_finder.py:230-239: `_sub`; `none` is the `IndexError` of a mask of the wrong length.  Gives the matrix
of the sub-network, the matrix of the rest with the new node, and the names of the rest. -/
def Tanner.sub (g : Tanner) (nodes subn : List Nm) (new : Nm) : Option (Tanner × Tanner × List Nm) :=
  let inds := false :: nodes.map fun n => subn.contains n
  if inds.length ≠ g.length then none
  else
    let subb := ((g.zip inds).filter fun p => p.2).map Prod.fst
    let rest := ((g.zip inds).filter fun p => !p.2).map Prod.fst
    let cut := ((anyRow g.cols subb).zip (anyRow g.cols rest)).map fun p => p.1 && p.2
    some (cut :: subb, rest ++ [cut], nodes.filter (fun n => !(subn.contains n)) ++ [new])

/-! ## Orders from partitions -/

/-- kahypar_order_finder.py:202-207: the steps that contract the part `q` to the tensor `('#', k+1)`: one step, or those
of the recursive call `rec` for parts larger than `cutoff`. -/
def khpPart (cutoff : Nat) (rec : Tanner → List Nm → Int → Option (List OrderStep × Int)) (inner : Tanner) (q : List Nm)
    (k : Int) : Option (List OrderStep × Int) :=
  if q.length > cutoff then
    match rec inner q (k + 1) with
    | none => none
    | some (o, k') => (setLastName (freshName k) o).map fun o' => (o', k')
  else some ([(q, freshName k)], k + 1)

/-- kahypar_order_finder.py:190-210: the loop over the parts. -/
def khpParts (cutoff : Nat) (rec : Tanner → List Nm → Int → Option (List OrderStep × Int)) :
    List (List Nm) → Tanner → List Nm → Int → Option (List OrderStep × List Nm × Int)
  | [], _, _, k => some ([], [], k)
  | [] :: ps, g, nodes, k => khpParts cutoff rec ps g nodes k
  | [x] :: ps, g, nodes, k =>
    match khpParts cutoff rec ps g nodes k with
    | none => none
    | some (o, names, k') => some (o, x :: names, k')
  | (x :: y :: p) :: ps, g, nodes, k =>
    match g.sub nodes (x :: y :: p) (freshName k) with
    | none => none
    | some (inner, g', nodes') =>
      if g'.length ≠ nodes'.length + 1 then none
      else
        match khpPart cutoff rec inner (x :: y :: p) k with
        | none => none
        | some (o, k1) =>
          match khpParts cutoff rec ps g' nodes' k1 with
          | none => none
          | some (o', names, k') => some (o ++ o', freshName k :: names, k')

/-- kahypar_order_finder.py:183-185: the nodes by their blocks. -/
def blocksOf (K : Nat) (block : Nat → Nat) (nodes : List Nm) : List (List Nm) :=
  (List.range K).map fun b => (nodes.zipIdx.filter fun p => block p.2 == b).map Prod.fst

/-- kahypar_order_finder.py:165-212: `_order_by_params`.  `part top g i` is the block KaHyPar puts node `i` of the
hypergraph of `g` into; a block number of `K` or more, or a node that is not in the hypergraph, is an exception.
`fuel` bounds the depth of the recursion (parts are smaller than the whole). -/
def khpOrder (part : Bool → Tanner → Nat → Nat) (K cutoff : Nat) :
    Nat → Bool → Tanner → List Nm → Int → Option (List OrderStep × Int)
  | 0, _, _, _, _ => none
  | fuel + 1, top, g, nodes, k =>
    let g := g.refresh
    if g.cols = 0 then some ([(nodes, .str "#")], k)
    else if g.length < nodes.length + 1 then none
    else
      let block := part top g
      if (List.range nodes.length).any fun i => decide (K ≤ block i) then none
      else
        let parts := blocksOf K block nodes
        if parts.any fun p => p.length == nodes.length then some ([(nodes, .str "#")], k)
        else
          match khpParts cutoff (khpOrder part K cutoff fuel false)
              (parts.insertionSort fun a b => b.length ≤ a.length) g nodes k with
          | none => none
          | some (o, names, k') => some (o ++ [(names, .str "#")], k')

/-- kahypar_order_finder.py:25-47: `query`; `path` are the paths opt_einsum finds for the steps. -/
def khpQuery {τ : Type} (part : Bool → Tanner → Nat → Nat) (K cutoff : Nat) (path : OrderStep → List (List Nat)) (tn : TN τ)
    (k : Int) : Option (List OrderStep) :=
  match tn.tanner with
  | none => none
  | some (g, nodes) =>
    match khpOrder part K cutoff nodes.length true g nodes k with
    | none => none
    | some (o, _) => resolveOrder path o

/-- kahypar_order_finder.py:130, 162: `min(reses, key=lambda x: (x.cost, reses.index(x)))`. -/
def firstMin {α : Type} (cost : α → Nat) : List α → Option α
  | [] => none
  | x :: l =>
    match firstMin cost l with
    | none => some x
    | some y => if cost x ≤ cost y then some x else some y

/-- kahypar_order_finder.py:113-117, 153-163: what `find_order` yields once the parameters `eps` are set: the network (copied
and completed) is rid of fixed edges and simplified, ten partitions are tried, and the cheapest order is appended to
the one of the simplification.  `part s` is the partitioner with the parameters of query `s`. -/
def khpFind {τ : Type} [NetTensor τ] (part : Nat → Bool → Tanner → Nat → Nat) (cutoff : Nat)
    (path : OrderStep → List (List Nat)) (cost : List OrderStep → Nat) (tn : TN τ) : Option (List OrderStep) :=
  match khpSimplify tn.nodes.length tn.fixAll 0 with
  | none => none
  | some (small, init, k) =>
    match (List.range 10).mapM fun s => khpQuery (part s) (s / 2 + 3) cutoff path small k with
    | none => none
    | some reses => (firstMin cost reses).map (init ++ ·)

end Verif
