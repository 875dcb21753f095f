import Mathlib.Data.Finset.Card
import Mathlib.Data.Finset.Sort
/-!
# Model of `UndirectedContractionTree` (acqdp/tensor_network/undirected_contraction_tree.py)

Subscripts are numbers.  Vertices are numbers: `0 .. n-1` are the operands, the others the contractions.
`none` stands for an exception.
-/

namespace Verif

/-- undirected_contraction_tree.py:11-43: the attributes of a tree.  `adj` are the neighbours of each vertex in the order
networkx keeps them, `side u v` is `graph[u][v][v]['subscripts']` (the key may be missing), `sub`, `parent`, `ncost` are
the attributes `subscripts`, `parent`, `cost` of the vertices. -/
structure Uct where
  n : Nat
  opn : Finset Nat
  sub : Nat → Finset Nat
  adj : Nat → List Nat
  side : Nat → Nat → Option (Finset Nat)
  parent : Nat → Nat
  ncost : Nat → Option Nat
  root : Nat × Nat
  rootCost : Int
  cost : Int
  stem : List Nat

/-- Assigning to one key of a dictionary (used throughout the file). -/
def put {α : Type} (f : Nat → α) (k : Nat) (x : α) : Nat → α := fun i => if i = k then x else f i

namespace Uct

/-- networkx `add_edge(u, v)`: appended to both lists of neighbours, unless there already. -/
def addEdge (g : Uct) (u v : Nat) : Uct :=
  if v ∈ g.adj u then g
  else
    let a := put g.adj u (g.adj u ++ [v])
    { g with adj := put a v (a v ++ [u]) }

/-- networkx `remove_edge(u, v)`, with the data of the edge. -/
def removeEdge (g : Uct) (u v : Nat) : Uct :=
  let a := put g.adj u ((g.adj u).erase v)
  { g with adj := put a v ((a v).erase u), side := fun x y => if (x = u ∧ y = v) ∨ (x = v ∧ y = u) then none else g.side x y }

/-- `graph[u][v][v] = {'subscripts': s}` (undirected_contraction_tree.py:51, 56). -/
def setSide (g : Uct) (u v : Nat) (s : Option (Finset Nat)) : Uct :=
  { g with side := fun x y => if x = u ∧ y = v then s else g.side x y }

/-- undirected_contraction_tree.py:48-57: `preprocess_edge`; `fuel` bounds the recursion (the height of the tree). -/
def preprocess : Nat → Uct → Nat → Nat → Option (Uct × Finset Nat)
  | 0, _, _, _ => none
  | fuel + 1, g, u, v =>
    match g.side u v with
    | some s => some (g, s)
    | none =>
      if v < g.n then some (g.setSide u v (some (g.sub v)), g.sub v)
      else
        match (g.adj v).filter (· ≠ u) with
        | [c0, c1] =>
          match preprocess fuel g v c0 with
          | none => none
          | some (g1, d0) =>
            match preprocess fuel g1 v c1 with
            | none => none
            | some (g2, d1) => some (g2.setSide u v (some (d0 ∪ d1)), d0 ∪ d1)
        | _ => none

/-- undirected_contraction_tree.py:36-38, and slicer.py:119-120: both directions of an edge. -/
def preprocess2 (fuel : Nat) (g : Uct) (e : Nat × Nat) : Option Uct :=
  match preprocess fuel g e.1 e.2 with
  | none => none
  | some (g1, _) => (preprocess fuel g1 e.2 e.1).map Prod.fst

/-- undirected_contraction_tree.py:59-63: `open_subscripts_at_edge`.  (A missing key is read as the empty set; the
theorems show that it is not missing.) -/
def openAt (g : Uct) (u v : Nat) : Finset Nat :=
  let a := (g.side u v).getD ∅
  if v < g.n then a else a ∩ ((g.side v u).getD ∅ ∪ g.opn)

/-- undirected_contraction_tree.py:65-69: `compute_cost`. -/
def stepCost (s0 s1 s : Finset Nat) : Nat :=
  let res := 2 ^ (s0 ∪ s1 ∪ s).card
  if (s0 ∪ s1) \ s ≠ ∅ then res * 2 else res

/-- undirected_contraction_tree.py:71-77: `compute_root_cost`. -/
def computeRootCost (g : Uct) : Uct :=
  let c := stepCost (g.openAt g.root.1 g.root.2) (g.openAt g.root.2 g.root.1) g.opn
  { g with cost := g.cost - g.rootCost + c, rootCost := c }

/-- undirected_contraction_tree.py:79-87: `compute_node_cost`. -/
def computeNodeCost (g : Uct) (v : Nat) : Option Uct :=
  match (g.adj v).filter (· ≠ g.parent v) with
  | [c0, c1] =>
    let c := stepCost (g.openAt v c0) (g.openAt v c1) (g.openAt (g.parent v) v)
    let old : Int := match g.ncost v with
      | some o => o
      | none => 0
    some { g with cost := g.cost - old + c, ncost := put g.ncost v (some c) }
  | _ => none

/-- undirected_contraction_tree.py:22-31: the loop over the path. -/
def initLoop : List (Nat × Nat) → List Nat → Nat → Uct → Option (List Nat × Uct)
  | [], ops, _, g => some (ops, g)
  | (i, j) :: path, ops, t, g =>
    match ops[max i j]? with
    | none => none
    | some v =>
      let ops1 := ops.eraseIdx (max i j)
      match ops1[min i j]? with
      | none => none
      | some u =>
        let g1 := (g.addEdge u t).addEdge v t
        initLoop path (ops1.eraseIdx (min i j) ++ [t]) (t + 1) { g1 with parent := put (put g1.parent u t) v t }

/-- networkx `graph.edges` when the vertices were added in the order `0, 1, ..` (undirected_contraction_tree.py:36). -/
def edgeList (g : Uct) : List (Nat × Nat) :=
  (List.range (2 * g.n - 2)).flatMap fun u => ((g.adj u).filter (u < ·)).map fun v => (u, v)

/-- undirected_contraction_tree.py:144-158: `detect_stem_in_subtree`. -/
def stemBelow (g : Uct) : Nat → Nat → Nat → Option ((Nat × Nat × Nat) × (Nat × Nat))
  | 0, _, _ => none
  | fuel + 1, u, v =>
    if v < g.n then some ((0, v, v), (0, v))
    else
      match (g.adj v).filter (· ≠ u), g.ncost v with
      | [c0, c1], some cv =>
        match stemBelow g fuel v c0, stemBelow g fuel v c1 with
        | some (res0, (cost0, end0)), some (res1, (cost1, end1)) =>
          let e := if cost0 > cost1 ∨ (cost0 = cost1 ∧ end0 ≥ end1) then (cost0, end0) else (cost1, end1)
          let m := if res0.1 ≥ res1.1 then res0 else res1
          let r := if m.1 ≥ cost0 + cost1 + cv then m else (cost0 + cost1 + cv, end0, end1)
          some (r, (e.1 + cv, e.2))
        | _, _ => none
      | _, _ => none

/-- networkx `shortest_path` in a tree (undirected_contraction_tree.py:164): the path from `v` to `b` that does not go
through `p`. -/
def treePath (g : Uct) (b : Nat) : Nat → Nat → Option Nat → Option (List Nat)
  | 0, _, _ => none
  | fuel + 1, v, p =>
    if v = b then some [v]
    else ((g.adj v).filter fun c => some c ≠ p).findSome? fun c => (treePath g b fuel c (some v)).map (v :: ·)

/-- undirected_contraction_tree.py:160-165: `detect_stem`. -/
def detectStem (g : Uct) : Option Uct :=
  match g.stemBelow (2 * g.n) 0 (g.parent 0) with
  | none => none
  | some ((_, e0, e1), _) => (g.treePath e1 (2 * g.n) e0 none).map fun s => { g with stem := s }

/-- undirected_contraction_tree.py:11-43: `__init__`, for the subscripts `lhs` of the operands and `rhs` of the result.
`path` has pairs of positions. -/
def make (lhs : List (Finset Nat)) (rhs : Finset Nat) (path : List (Nat × Nat)) : Option Uct :=
  let n := lhs.length
  if n = 1 then none
  else
    let g0 : Uct := ⟨n, rhs, fun i => lhs.getD i ∅, fun _ => [], fun _ _ => none, fun _ => 0, fun _ => none, (0, 0), 0, 0, []⟩
    match initLoop path.dropLast (List.range n) n g0 with
    | some ([u, v], g1) =>
      let g2 : Uct := { g1.addEdge u v with root := (u, v), parent := put (put g1.parent u v) v u }
      match g2.edgeList.foldlM (fun g e => preprocess2 (2 * n) g e) g2 with
      | none => none
      | some g3 =>
        match (List.range' n (n - 2)).foldlM computeNodeCost g3.computeRootCost with
        | none => none
        | some g4 => g4.detectStem
    | _ => none

/-- undirected_contraction_tree.py:89-94: `get_internal_path`. -/
def internalPath (g : Uct) : Nat → Nat → Option (List (Nat × Nat × Nat))
  | 0, _ => none
  | fuel + 1, v =>
    if v < g.n then some []
    else
      match (g.adj v).filter (· ≠ g.parent v) with
      | [c0, c1] =>
        match internalPath g fuel c0, internalPath g fuel c1 with
        | some p0, some p1 => some (p0 ++ p1 ++ [(c0, c1, v)])
        | _, _ => none
      | _ => none

/-- undirected_contraction_tree.py:100-104: from names to positions; gives the operands left. -/
def positions : List Nat → List (Nat × Nat × Nat) → Option (List (Nat × Nat) × List Nat)
  | ops, [] => some ([], ops)
  | ops, (c0, c1, v) :: l =>
    if c0 ∈ ops ∧ c1 ∈ ops then
      (positions ((ops.erase c0).erase c1 ++ [v]) l).map fun r => ((ops.idxOf c0, ops.idxOf c1) :: r.1, r.2)
    else none

/-- undirected_contraction_tree.py:96-105: `get_path`. -/
def getPath (g : Uct) : Option (List (Nat × Nat)) :=
  match g.internalPath (2 * g.n) g.root.1, g.internalPath (2 * g.n) g.root.2 with
  | some p0, some p1 => (positions (List.range g.n) (p0 ++ p1)).map fun r => r.1 ++ [(0, 1)]
  | _, _ => none

/-- undirected_contraction_tree.py:116-127: one round of the loop: `c0` is moved from `u` to `v`. -/
def moveBranch (g : Uct) (u c0 v : Nat) : Uct :=
  let g1 := g.addEdge v c0
  let g2 := (g1.setSide v c0 (g1.side u c0)).setSide c0 v (g1.side c0 u)
  let g3 := g2.removeEdge u c0
  let g4 : Uct := if g3.parent c0 = u then { g3 with parent := put g3.parent c0 v } else g3
  let g5 : Uct := if g4.parent u = c0 then { g4 with parent := put (put g4.parent v c0) u v } else g4
  if g5.root = (u, c0) ∨ g5.root = (c0, u) then { g5 with root := (v, c0) } else g5

/-- undirected_contraction_tree.py:107-134: `switch_edges((u, c0), (v, c1))`.  (After the loop the names `u` and `v` of the
code are swapped.)  An edge that is missing is a `KeyError` (lines 118, 119, 128). -/
def switchEdges (g : Uct) (u c0 v c1 : Nat) : Option Uct :=
  if ¬ (c0 ∈ g.adj u ∧ v ∈ g.adj u ∧ c1 ∈ g.adj v) then none
  else
    let g2 := (g.moveBranch u c0 v).moveBranch v c1 u
    let g3 := (g2.setSide u v none).setSide v u none
    match preprocess2 (2 * g.n) g3 (v, u) with
    | none => none
    | some g4 =>
      match g4.computeNodeCost v with
      | none => none
      | some g5 =>
        match g5.computeNodeCost u with
        | none => none
        | some g6 => some (if g6.root = (u, v) ∨ g6.root = (v, u) then g6.computeRootCost else g6)

/-- undirected_contraction_tree.py:136-142: `step_root`. -/
def stepRoot (g : Uct) (u v : Nat) : Option Uct :=
  if u ≠ g.root.1 ∧ u ≠ g.root.2 then none
  else
    (({ g with root := (u, v), parent := put g.parent u v } : Uct).computeNodeCost u).map computeRootCost

/-- `stem[i - 1:i + 3]` (undirected_contraction_tree.py:169, 176), for `i` at least 1. -/
def stem4 (g : Uct) (i : Nat) : Option (Nat × Nat × Nat × Nat) :=
  match (g.stem.drop (i - 1)).take 4 with
  | [a, b, c, d] => if i = 0 then none else some (a, b, c, d)
  | _ => none

/-- undirected_contraction_tree.py:170, 171, 177, 189: the neighbour of `u` other than `a` and `b`. -/
def third (g : Uct) (u a b : Nat) : Option Nat :=
  match (g.adj u).filter fun c => c ≠ a ∧ c ≠ b with
  | [c] => some c
  | _ => none

/-- undirected_contraction_tree.py:167-172: `switch_branches`. -/
def switchBranches (g : Uct) (i : Nat) : Option Uct :=
  match g.stem4 i with
  | none => none
  | some (t0, u, v, t1) =>
    match g.third u t0 v, g.third v u t1 with
    | some c0, some c1 => g.switchEdges u c0 v c1
    | _, _ => none

/-- undirected_contraction_tree.py:174-180: `merge_branches`. -/
def mergeBranches (g : Uct) (i : Nat) : Option (Uct × Nat) :=
  match g.stem4 i with
  | none => none
  | some (t0, u, v, t1) =>
    match g.third u t0 v with
    | some c0 => (g.switchEdges u c0 v t1).map fun g' => ({ g' with stem := g'.stem.eraseIdx (i + 1) }, c0)
    | none => none

/-- undirected_contraction_tree.py:190, 191: the sub-branch to use. -/
def subBranch (g : Uct) (u v : Nat) : Option Nat → Option Nat
  | some c => some c
  | none => ((g.adj v).filter (· ≠ u)).min?

/-- undirected_contraction_tree.py:182-193: `unmerge_branches`. -/
def unmergeBranches (g : Uct) (i : Nat) (c0 : Option Nat) : Option Uct :=
  match (g.stem.drop (i - 1)).take 3 with
  | [t0, u, t1] =>
    if i = 0 then none
    else
      match g.third u t0 t1 with
      | none => none
      | some v =>
        match g.subBranch u v c0 with
        | none => none
        | some c => (g.switchEdges u t1 v c).map fun g' => { g' with stem := g'.stem.insertIdx (i + 1) v }
  | _ => none

end Uct

end Verif
