import Verif.Model.Uct
import Verif.Model.Orders
import Verif.Model.Cost
/-!
# Model of `Slicer` (acqdp/tensor_network/slicer.py)

`none` stands for an exception.
-/

namespace Verif

namespace Uct

/-- Some calls of `switch_branches` (slicer.py:132, 139, 153, 164, 172, 186). -/
def switchAll (g : Uct) (l : List Nat) : Option Uct := l.foldlM switchBranches g

/-- slicer.py:112-123: a subscript is taken out of the operands, what is stored at the edges is computed again edge by edge
(with the old entries of the edges not yet reached), and the costs are computed again.  (`graph[u][v]` and `graph[v][u]` are
the same dictionary in networkx.) -/
def removeSub (g : Uct) (s : Nat) : Option Uct :=
  let g1 : Uct := { g with sub := fun v => if v < g.n then g.sub v \ {s} else g.sub v }
  match g1.edgeList.foldlM (fun h e => preprocess2 (2 * g.n) ((h.setSide e.1 e.2 none).setSide e.2 e.1 none) e) g1 with
  | none => none
  | some g2 => (List.range' g.n (g.n - 2)).foldlM computeNodeCost g2.computeRootCost

/-- slicer.py:131-142: moving the branch at `ii` to the first of the positions `ks` where that does not make the cost
larger than `cur`; tells whether there was one. -/
def tryLeft (ii : Nat) : List Nat → Int → Uct → Option (Uct × Bool × Int)
  | [], cur, g => some (g, false, cur)
  | k :: ks, cur, g =>
    match g.switchAll (List.range' k (ii - k)) with
    | none => none
    | some g1 =>
      if g1.cost ≤ cur then some (g1, true, g1.cost)
      else
        match g1.switchAll (List.range' k (ii - k)).reverse with
        | none => none
        | some g2 => tryLeft ii ks cur g2

/-- slicer.py:130-142. -/
def sinkLeft : Nat → Int → Uct → Option (Uct × Nat × Int)
  | 0, cur, g => some (g, 0, cur)
  | ii + 1, cur, g =>
    if ii + 1 > 3 then
      match tryLeft (ii + 1) (List.range' 3 (ii + 1 - 3)).reverse cur g with
      | none => none
      | some (g1, true, cur1) => sinkLeft ii cur1 g1
      | some (g1, false, cur1) => some (g1, ii + 1, cur1)
    else some (g, ii + 1, cur)

/-- slicer.py:146-151 and 178-184: exchanging branches at one position after the other; `best` is the last position at which
the cost was not larger. -/
def sweep : List Nat → Nat → Int → Uct → Option (Uct × Nat × Int)
  | [], best, cur, g => some (g, best, cur)
  | k :: ks, best, cur, g =>
    match g.switchBranches k with
    | none => none
    | some g1 => if g1.cost ≤ cur then sweep ks k g1.cost g1 else sweep ks best cur g1

/-- slicer.py:128-157: the loop at the left end; gives the cost.  `fuel` bounds the rounds (`i` gets smaller). -/
def leftLoop : Nat → Nat → Int → Uct → Option (Uct × Int)
  | 0, _, _, _ => none
  | fuel + 1, i, cur, g =>
    if i > 5 then
      match sinkLeft i cur g with
      | none => none
      | some (g1, ii, cur1) =>
        match sweep (List.range' 6 (ii - 5)).reverse (ii + 1) cur1 g1 with
        | none => none
        | some (g2, ii2, cur2) =>
          match g2.switchAll (List.range' 6 (ii2 - 6)) with
          | none => none
          | some g3 => if ii2 ≥ i then some (g3, cur2) else leftLoop fuel ii2 cur2 g3
    else some (g, cur)

/-- slicer.py:163-175. -/
def tryRight (jj : Nat) : List Nat → Int → Uct → Option (Uct × Bool × Int)
  | [], cur, g => some (g, false, cur)
  | k :: ks, cur, g =>
    match g.switchAll (List.range' jj (k - jj)).reverse with
    | none => none
    | some g1 =>
      if g1.cost ≤ cur then some (g1, true, g1.cost)
      else
        match g1.switchAll (List.range' jj (k - jj)) with
        | none => none
        | some g2 => tryRight jj ks cur g2

/-- slicer.py:162-175; `fuel` bounds the rounds (`jj` grows up to the length of the stem). -/
def sinkRight : Nat → Nat → Int → Uct → Option (Uct × Nat × Int)
  | 0, _, _, _ => none
  | fuel + 1, jj, cur, g =>
    if jj + 3 < g.stem.length then
      match tryRight jj (List.range' (jj + 1) (g.stem.length - 1 - (jj + 1))) cur g with
      | none => none
      | some (g1, true, cur1) => sinkRight fuel (jj + 1) cur1 g1
      | some (g1, false, cur1) => some (g1, jj, cur1)
    else some (g, jj, cur)

/-- slicer.py:160-190: the loop at the right end (`j` is at least 1, so `jj - 1` is not negative). -/
def rightLoop : Nat → Nat → Int → Uct → Option (Uct × Int)
  | 0, _, _, _ => none
  | fuel + 1, j, cur, g =>
    if j + 5 < g.stem.length then
      match sinkRight (g.stem.length + 1) j cur g with
      | none => none
      | some (g1, jj, cur1) =>
        match sweep (List.range' jj (g1.stem.length - 5 - jj)) (jj - 1) cur1 g1 with
        | none => none
        | some (g2, jj2, cur2) =>
          match g2.switchAll (List.range' (jj2 + 1) (g2.stem.length - 5 - (jj2 + 1))).reverse with
          | none => none
          | some g3 => if jj2 ≤ j then some (g3, cur2) else rightLoop fuel jj2 cur2 g3
    else some (g, cur)

/-- slicer.py:112-190: the cost without a subscript, after moving branches at both ends of its range on the stem. -/
def without (g : Uct) (s : Nat × Nat × Nat) : Option (Uct × Int) :=
  match g.removeSub s.1 with
  | none => none
  | some g1 =>
    match leftLoop (s.2.1 + 1) s.2.1 g1.cost g1 with
    | none => none
    | some (g2, cur) => rightLoop (g2.stem.length + 1) s.2.2 cur g2

/-- slicer.py:99-106: for each subscript that appears on the stem and disappears again, where it does.  `enum` gives the
order in which a Python set is read. -/
def spans (enum : Finset Nat → List Nat) (g : Uct) : List (Nat × Nat × Nat) :=
  ((List.range (g.stem.length - 1)).foldl (fun (st : Finset Nat × (Nat → Nat) × List (Nat × Nat × Nat)) i =>
    let x := g.stem.getD i 0
    let new := g.openAt (g.parent x) x
    let dic := (enum (new \ st.1)).foldl (fun d a => put d a i) st.2.1
    (new, dic, st.2.2 ++ (enum (st.1 \ new)).map fun a => (a, dic a, i))) (∅, fun _ => 0, [])).2.2

/-- slicer.py:107: the ten longest ranges (`sorted` is stable). -/
def longest (ss : List (Nat × Nat × Nat)) : List (Nat × Nat × Nat) :=
  (ss.insertionSort fun x y => (x.2.1 : Int) - x.2.2 ≤ (y.2.1 : Int) - y.2.2).take 10

end Uct

/-- slicer.py:108-110: the state of the loop: the tree, its cost, the subscripts taken at once, and for the others the cost
and the path without them. -/
structure Pick where
  tree : Uct
  cost : Int
  taken : List Nat
  dic : Dict Nat (Int × List (Nat × Nat))

/-- slicer.py:111-196: one round.  `accept` is the test `curr_cost < (1 + self.slice_thres) / 2 * c`. -/
def Pick.round (accept : Int → Int → Bool) (p : Pick) (s : Nat × Nat × Nat) : Option Pick :=
  match p.tree.without s with
  | none => none
  | some (g, cur) =>
    if accept cur p.cost then some { p with taken := p.taken ++ [s.1], cost := cur, tree := g }
    else (g.getPath).map fun path => { p with dic := p.dic.set s.1 (cur, path) }

/-- slicer.py:200: `sorted(ss_dic, key=...)[0]`. -/
def cheapest {α : Type} : Dict Nat (Int × α) → Option (Nat × Int × α)
  | [] => none
  | x :: l =>
    match cheapest l with
    | none => some x
    | some y => if x.2.1 ≤ y.2.1 then some x else some y

/-- slicer.py:197-202. -/
def Pick.result (p : Pick) : Option (List Nat × List (Nat × Nat)) :=
  if p.taken.length > 0 then (p.tree.getPath).map fun path => (p.taken, path)
  else (cheapest p.dic).map fun x => ([x.1], x.2.2)

/-- slicer.py:203-208: the steps of a path get the names of the steps of the order. -/
def renameSteps : List Nm → List (Nat × Nat) → List OrderStep → Option (List OrderStep)
  | _, [], _ => some []
  | ns, p :: pp, o :: order =>
    match ns[p.1]?, ns[p.2]? with
    | some a, some b =>
      (renameSteps ((ns.eraseIdx (max p.1 p.2)).eraseIdx (min p.1 p.2) ++ [o.2]) pp order).map (([a, b], o.2) :: ·)
    | _, _ => none
  | _, _ :: _, [] => none

/-- local_optimizer.py:46-58: the subscripts of the nodes and of the result as sets of numbers (the position of the edge
among the edges), as `UndirectedContractionTree` reads them (undirected_contraction_tree.py:13-21). -/
def TN.subSets {τ : Type} (tn : TN τ) : List (Finset Nat) × Finset Nat :=
  (tn.nodes.map fun p => (p.2.legs.map fun e => tn.edges.keys.idxOf e).toFinset, (tn.openE.map fun e => tn.edges.keys.idxOf e).toFinset)

/-- A path of pairs (undirected_contraction_tree.py:23). -/
def pairsOfPath (p : List (List Nat)) : Option (List (Nat × Nat)) :=
  p.mapM fun s => match s with
    | [i, j] => some (i, j)
    | _ => none

/-- slicer.py:83-209: `_biggest_weight_edge`. -/
def biggestEdge {τ : Type} (enum : Finset Nat → List Nat) (accept : Int → Int → Bool) (tn : TN τ) (order : List OrderStep) :
    Option (List Nm × List OrderStep) :=
  let tn1 := tn.fixAll
  match (orderToPath tn1.nodes.keys order).bind pairsOfPath with
  | none => none
  | some path =>
    match Uct.make tn1.subSets.1 tn1.subSets.2 path with
    | none => none
    | some g =>
      match (Uct.longest (g.spans enum)).foldlM (Pick.round accept) ⟨g, g.cost, [], []⟩ with
      | none => none
      | some p =>
        match p.result with
        | none => none
        | some (subs, pp) =>
          match subs.mapM fun s => tn1.edges.keys[s]?, renameSteps tn1.nodes.keys pp order with
          | some es, some o => some (es, o)
          | _, _ => none

/-- contraction.py:36-80: a scheme found so far, an order with its cost. -/
structure Sch where
  order : List OrderStep
  cost : Cost

/-- What `numpy.random` and `opt_einsum` give during the rounds of one call of `LocalOptimizer.optimize`. -/
abbrev OptRounds := List (Nat × (Nm → Nat) × (OrderStep → List (List Nat)))

/-- local_optimizer.py:220-227: `optimize`, with the cost found by `opt_einsum`. -/
def Sch.optimize (size : Nat) (rounds : OptRounds) (cost : List OrderStep → Cost) (y : Sch) : Option Sch :=
  match rounds with
  | [] => some y
  | r :: rs => (optimizeOrder size (r :: rs) y.order).map fun o => ⟨o, cost o⟩

/-- The scheme given to `optimize` after the call: `_flatten_order` works on its order in place
(local_optimizer.py:190-218, 222-223). -/
def Sch.mutated (size : Nat) (rounds : OptRounds) (y : Sch) : Sch :=
  match rounds with
  | [] => y
  | (offset, sz, _) :: _ => { y with order := flattenOrder size offset sz y.order }

/-- What the outside world gives during one call of `_slice`: the rounds of local optimisation, paths and costs.  `cost i`
are the costs `opt_einsum` reports in round `i`; the order in which sets are read. -/
structure SliceEnv (τ : Type) where
  before : OptRounds
  middle : Nat → OptRounds
  after : OptRounds
  path : Nat → OrderStep → List (List Nat)
  cost : TN τ → List OrderStep → Cost
  enum : Finset Nat → List Nat

/-- slicer.py:20-38: the parameters. -/
structure SliceParams where
  maxTw : Nat
  maxNumSlice : Int
  size : Nat
  accept : Int → Int → Bool

/-- slicer.py:62-64: the edges are fixed (to 0) and taken out. -/
def TN.fixSlices {τ : Type} (tn : TN τ) : List Nm → Option (TN τ)
  | [] => some tn.fixAll
  | e :: es =>
    match tn.fixEdge e [0] with
    | (tn1, .ok ()) => fixSlices tn1 es
    | (_, .error _) => none

/-- slicer.py:55-56: the test for stopping early, without rounding: `log2(t) - max_tw + k >= max_num_slice + 2`. -/
def hopeless (P : SliceParams) (t k : Nat) : Bool :=
  if 0 ≤ P.maxNumSlice + 2 + P.maxTw - k then decide (2 ^ (P.maxNumSlice + 2 + P.maxTw - k).toNat ≤ t) else decide (0 < t)

/-- slicer.py:52-66: the loop of `_slice`; `fuel` bounds the rounds (each adds a sliced edge, and there are at most
`max_num_slice`). -/
def sliceLoop {τ : Type} (P : SliceParams) (V : SliceEnv τ) : Nat → Nat → TN τ → List Nm → Sch → Option (TN τ × List Nm × Sch)
  | 0, _, _, _, _ => none
  | fuel + 1, i, tn, sl, y =>
    if y.cost.t > 2 ^ P.maxTw then
      if (sl.length : Int) ≥ P.maxNumSlice then some (tn, sl, y)
      else if hopeless P y.cost.t sl.length then some (tn, sl, y)
      else
        match y.optimize P.size (V.middle i) (V.cost tn) with
        | none => none
        | some y1 =>
          match biggestEdge V.enum P.accept tn y1.order with
          | none => none
          | some (k, order) =>
            match tn.fixSlices k with
            | none => none
            | some tn1 =>
              match resolveOrder (V.path i) order with
              | none => none
              | some o =>
                sliceLoop P V fuel (i + 1) tn1 (sl ++ k) ⟨o, { V.cost tn1 o with k := (sl ++ k).length }⟩
    else some (tn, sl, y)

/-- slicer.py:46: `min(orders, key=lambda a: (a.cost, orders.index(a)))`: a later scheme is taken if its cost is not equal
to and less than that of the best so far. -/
def bestSch : List Sch → Option Sch
  | [] => none
  | y :: ys => some (ys.foldl (fun b a => if !(a.cost.eq b.cost) && a.cost.lt b.cost then a else b) y)

/-- slicer.py:40-79: `_slice`.  The outer option is an exception, the inner one that no scheme was found. -/
def sliceScheme {τ : Type} (P : SliceParams) (V : SliceEnv τ) (tn : TN τ) (orders : List Sch) : Option (Option (Sch × List Nm)) :=
  match bestSch orders with
  | none => none
  | some y0 =>
    match y0.optimize P.size V.before (V.cost tn) with
    | none => none
    | some y1 =>
      match sliceLoop P V (P.maxNumSlice.toNat + 1) 0 tn [] y1 with
      | none => none
      | some (tn1, sl, y) =>
        match y.optimize P.size V.after (V.cost tn1) with
        | none => none
        | some new =>
          let new1 : Sch := { new with cost := { new.cost with k := sl.length } }
          -- with no rounds the new scheme is the old one
          let old : Sch := if V.after = [] then new1 else y.mutated P.size V.after
          let res := if new1.cost.t ≤ 2 ^ P.maxTw then new1 else old
          if res.cost.t ≤ 2 ^ P.maxTw then some (some (res, sl)) else some none

end Verif
