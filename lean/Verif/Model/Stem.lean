import Verif.Model.Patch
/-!
# Model of `ContractionTree.patch` (acqdp/tensor_network/contraction_tree.py)

The search for a better order of the large steps: the tree of the order is read as two chains of branches, neighbouring
branches are merged, and the tree is built again.  `networkx.max_weight_matching` is a parameter.  `none` is an exception.

Objects: a tree is a value here, a graph of objects in Python.  The code changes `children` of objects of the first tree only;
these are the nodes with `new = false`, known by their names, and a change is made wherever the object occurs.
-/

namespace Verif

/-- contraction_tree.py:16-47: a tree.  `subs` are the indices (edges instead of symbols), `new` marks objects made by the
search itself. -/
inductive PTree where
  | leaf (name : Nm) (subs : List Nm)
  | node (new : Bool) (name : Nm) (subs : List Nm) (a b : PTree)

/-- Elements of the first list that are not in the second one, as a set (contraction_tree.py:132, 170, 217, 228, 267). -/
def setMinus (a b : List Nm) : List Nm := (a.filter fun x => decide (x ∉ b)).dedup

/-- Elements of both lists, as a set (contraction_tree.py:133, 186). -/
def setMeet (a b : List Nm) : List Nm := (a.filter fun x => decide (x ∈ b)).dedup

/-- The symmetric difference (contraction_tree.py:170, 217, 228, 256, 267). -/
def setDiff (a b : List Nm) : List Nm := setMinus a b ++ setMinus b a

namespace PTree

/-- contraction_tree.py:37. -/
def name : PTree → Nm
  | leaf n _ => n
  | node _ n _ _ _ => n

/-- contraction_tree.py:38. -/
def subs : PTree → List Nm
  | leaf _ s => s
  | node _ _ s _ _ => s

/-- contraction_tree.py:36-47: a tree with two children, which are sorted (stably) by the number of their indices. -/
def mk (new : Bool) (n : Nm) (s : List Nm) (x y : PTree) : PTree :=
  if x.subs.length ≤ y.subs.length then node new n s x y else node new n s y x

/-- contraction_tree.py:71-79: `full_order`. -/
def fullOrder : PTree → List OrderStep
  | leaf _ _ => []
  | node _ n _ a b => b.fullOrder ++ a.fullOrder ++ [([a.name, b.name], n)]

/-- Changing `children` of the object called `n` (contraction_tree.py:174, 192, 193). -/
def setChildren (n : Nm) (x y : PTree) : PTree → PTree
  | leaf m s => if m = n then node false m s x y else leaf m s
  | node new m s a b => if new = false ∧ m = n then node new m s x y else node new m s (setChildren n x y a) (setChildren n x y b)

end PTree

/-- contraction_tree.py:30-33: one step of `from_order`, where `subs` gives the indices of the results.  Simplification: a step
with other than two operands is an exception (in the code a little later, contraction_tree.py:77, 122). -/
def ptreeStep (subs : Nm → List Nm) (d : Dict Nm PTree) (s : OrderStep) : Option (Dict Nm PTree) :=
  match s.1 with
  | [x, y] =>
    match d.get? x, d.get? y with
    | some t, some u => some (d.set s.2 (PTree.mk false s.2 (subs s.2) t u))
    | _, _ => none
  | _ => none

/-- contraction_tree.py:29-33: the indices of all tensors when encapsulating along an order. -/
def legsAlong {τ : Type} [NetTensor τ] (perm : List Nm → List Nm) : List OrderStep → TN τ → Dict Nm (List Nm) → Except Err (Dict Nm (List Nm))
  | [], _, d => .ok d
  | (xs, z) :: o, tn, d =>
    match tn.encapsulate xs (perm (tn.boundaryOfNodes xs)) (some z) z with
    | (_, .error e) => .error e
    | (tn', .ok n) => legsAlong perm o tn' (d.set n (((tn'.nodes.get? n).map fun r => r.legs).getD []))

/-- A table of indices read as a function. -/
def legsOf (d : Dict Nm (List Nm)) (n : Nm) : List Nm := (d.get? n).getD []

/-- contraction_tree.py:23-34: `from_order`. -/
def fromOrder {τ : Type} [NetTensor τ] (perm : List Nm → List Nm) (tn : TN τ) (order : List OrderStep) : Option PTree :=
  match legsAlong perm order tn (tn.nodes.map fun p => (p.1, p.2.legs)) with
  | .error _ => none
  | .ok d =>
    match order.foldlM (ptreeStep (legsOf d)) (tn.nodes.map fun p => (p.1, PTree.leaf p.1 p.2.legs)) with
    | none => none
    | some t => t.get? (.str "#")

/-- contraction_tree.py:134: an entry of a chain: a branch, its indices the rest of the stem has, those it has not, and the
rest of the stem. -/
structure Br where
  branch : PTree
  both : List Nm
  out : List Nm
  stem : PTree

/-- contraction_tree.py:126, 194: a chain: its first tree, the indices of that, and the entries. -/
structure Chain where
  head : PTree
  keys : List Nm
  tail : List Br

namespace PTree

/-- contraction_tree.py:117-138: `branch_info(False)`; `T` is `stem_size`. -/
def chain (T : Nat) : PTree → List Br
  | leaf _ _ => []
  | node _ _ s a b =>
    if T ≤ s.length then ⟨a, setMeet a.subs b.subs, setMinus a.subs b.subs, b⟩ :: (a.chain T ++ b.chain T) else []

/-- contraction_tree.py:117-138: the first three entries of `branch_info()` (the others are not used): the tree where the
stem begins, and its two chains; `none` if there is none. -/
def info (T : Nat) : PTree → Option (PTree × Chain × Chain)
  | leaf _ _ => none
  | node new n s a b =>
    if T ≤ max a.subs.length b.subs.length then some (node new n s a b, ⟨a, a.subs, a.chain T⟩, ⟨b, b.subs, b.chain T⟩)
    else
      match a.info T with
      | some x => some x
      | none => b.info T

end PTree

/-- An object of the first tree gets other children: everywhere in a chain. -/
def Chain.upd (f : PTree → PTree) (c : Chain) : Chain :=
  ⟨f c.head, c.keys, c.tail.map fun e => ⟨f e.branch, e.both, e.out, f e.stem⟩⟩

/-- contraction_tree.py:186: the number of indices left of two sets is at most 12. -/
def fewLeft (m0 m1 : List Nm) : Bool := decide ((setDiff m0 m1).length ≤ 12)

/-- contraction_tree.py:184-196: up to two branches of the shorter chain `p` are passed by (`i < len(brb)` compares with two); if it is two, the
other chain `q` is hung between them.  Gives the trees after that, or `none` for an `IndexError`. -/
def shiftStem (r : PTree) (p q : Chain) (t : PTree) : Option (PTree × Chain × Chain) :=
  if fewLeft p.keys q.keys then
    match p.tail with
    | [] => none
    | e1 :: tail1 =>
      let m1 := setMinus (p.keys ++ e1.both) e1.out
      if fewLeft m1 q.keys then
        match tail1 with
        | [] => none
        | e2 :: tail2 =>
          let m2 := setMinus (m1 ++ e2.both) e2.out
          let f := fun x => (PTree.setChildren e1.stem.name e2.stem q.head) ((PTree.setChildren r.name e2.branch p.head) x)
          some (f t, Chain.upd f ⟨e2.stem, m2, tail2⟩, q.upd f)
      else some (t, p, q)
  else some (t, p, q)

/-- contraction_tree.py:140-164: the graph: vertices with their branches in the order of insertion, edges, and the names left
for new trees (`self.inter_names`). -/
structure Dig where
  nodes : Dict Int PTree
  edges : List (Int × Int)
  names : List Nm

/-- contraction_tree.py:153-158: the indices of a branch that the rest of the stem has not; `none` stands for the `KeyError`
that is caught.  The vertex −1 comes with the first edge (its branch, set in line 161, is given here). -/
def digOuts (src : Int) (last : PTree) : List Nm → Dict Nm Int → Dig → Option (Dict Nm Int × Dig)
  | [], d, g => some (d, g)
  | n :: ns, d, g =>
    match d.get? n with
    | none => none
    | some x =>
      digOuts src last ns (d.del n) { g with nodes := if src ∈ g.nodes.keys then g.nodes else g.nodes ++ [(src, last)], edges := g.edges ++ [(src, x)] }

/-- contraction_tree.py:149-160: the loop over the entries; `i` is the position of the entry, `ll` the number of entries. -/
def digLoop (ll : Nat) (last : PTree) : Nat → List Br → Dict Nm Int → Dig → Option (Dict Nm Int × Dig)
  | _, [], d, g => some (d, g)
  | i, e :: es, d, g =>
    match digOuts (if i + 1 < ll then (i : Int) + 1 else -1) last e.out d { g with nodes := g.nodes ++ [((i : Int) + 1, e.branch)] } with
    | none => none
    | some (d1, g1) => digLoop ll last (i + 1) es (e.both.foldl (fun d n => d.set n ((i : Int) + 1)) d1) g1

/-- contraction_tree.py:140-164: `branches_to_digraph`; the inner `none` is `None`. -/
def toDig (c : Chain) : Option (Option Dig) :=
  match c.tail.getLast? with
  | none => some none
  | some l =>
    if c.tail.length ≤ 2 then some none
    else
      match digLoop c.tail.length l.stem 1 c.tail (c.keys.foldl (fun d n => d.set n 0) []) ⟨[(0, c.head)], [], c.tail.map fun e => e.stem.name⟩ with
      | none => some none
      | some (d, g) =>
        if (-1) ∈ g.nodes.keys then some (some { g with edges := g.edges ++ d.map fun p => (-1, p.2) })
        else none

namespace Dig

/-- networkx: `in_degree`, `out_degree` (contraction_tree.py:214, 253). -/
def inDeg (g : Dig) (v : Int) : Nat := (g.edges.filter fun e => e.2 == v).length

/-- See `inDeg`. -/
def outDeg (g : Dig) (v : Int) : Nat := (g.edges.filter fun e => e.1 == v).length

/-- contraction_tree.py:209: the smallest predecessor other than −1. -/
def firstPred (g : Dig) (u : Int) : Option Int := ((g.edges.filter fun e => e.2 == u && e.1 != -1).map (·.1)).min?

/-- contraction_tree.py:248: the largest successor other than 0. -/
def lastSucc (g : Dig) (u : Int) : Option Int := ((g.edges.filter fun e => e.1 == u && e.2 != 0).map (·.2)).max?

/-- The indices of the branch at a vertex. -/
def subsAt (g : Dig) (u : Int) : List Nm := ((g.nodes.get? u).map PTree.subs).getD []

/-- contraction_tree.py:215-219, 254-258: whether merging two branches is worth it; `k` is `CONTRACTION_TREE_PARAMS['k']`. -/
def worth (k : Nat) (g : Dig) (u v : Int) : Bool :=
  decide (2 ^ (setDiff (g.subsAt u) (g.subsAt v)).length ≤ k * (2 ^ (g.subsAt u).length + 2 ^ (g.subsAt v).length))

/-- contraction_tree.py:203-219: the pairs to be merged in the first half of a round, with the number of indices of the merged branch (the weight is
two to minus that). -/
def cands1 (width k : Nat) (g : Dig) : List ((Int × Int) × Nat) :=
  let l := g.nodes.keys
  l.zipIdx.flatMap fun ui =>
    if ui.1 = 0 ∨ ui.1 = -1 ∨ ui.2 + 2 ≥ l.length then []
    else
      let v1 := if l.getD (ui.2 + 1) 0 ≠ -1 then l.getD (ui.2 + 1) 0 else l.getD (l.length - 2) 0
      let vs := match g.firstPred ui.1 with
        | some v => if v ≠ v1 then [v1, v] else [v1]
        | none => [v1]
      (vs.filter fun v => decide (g.inDeg ui.1 ≤ width) && decide (g.outDeg v ≤ width) && decide (g.outDeg ui.1 ≤ g.inDeg ui.1) && worth k g ui.1 v).map
        fun v => ((ui.1, v), (setDiff (g.subsAt ui.1) (g.subsAt v)).length)

/-- contraction_tree.py:242-258: the pairs to be merged in the second half. -/
def cands2 (width k : Nat) (g : Dig) : List ((Int × Int) × Nat) :=
  let l := g.nodes.keys
  l.zipIdx.flatMap fun ui =>
    if ui.1 = 0 ∨ ui.1 = -1 ∨ ui.2 ≤ 1 then []
    else
      let v1 := l.getD (ui.2 - 1) 0
      let vs := match g.lastSucc ui.1 with
        | some v => if v ≠ v1 then [v1, v] else [v1]
        | none => [v1]
      (vs.filter fun v => decide (g.outDeg ui.1 ≤ width) && decide (g.inDeg v ≤ width) && decide (g.inDeg ui.1 ≤ g.outDeg ui.1) && worth k g ui.1 v).map
        fun v => ((ui.1, v), (setDiff (g.subsAt ui.1) (g.subsAt v)).length)

/-- contraction_tree.py:226-240, 265-279: the branch at `v` is merged into the one at `u`. -/
def mergePair (g : Dig) (u v : Int) : Option Dig :=
  match g.nodes.get? u, g.nodes.get? v, g.names with
  | some bu, some bv, n :: names =>
    let add := (g.edges.filter fun e => e.1 == v && e.2 != u).map (fun e => (u, e.2)) ++ (g.edges.filter fun e => e.2 == v && e.1 != u).map fun e => (e.1, u)
    some ⟨(g.nodes.set u (PTree.mk true n (setDiff bu.subs bv.subs) bu bv)).del v, (g.edges ++ add).filter fun e => e.1 != v && e.2 != v, names⟩
  | _, _, _ => none

/-- contraction_tree.py:202-279: the rounds; `mt` is `max_weight_matching`.  `fuel` bounds the rounds (each removes a vertex). -/
def rounds (mt : List ((Int × Int) × Nat) → List (Int × Int)) (width k : Nat) : Nat → Dig → Option Dig
  | 0, _ => none
  | fuel + 1, g =>
    match mt (g.cands1 width k) with
    | [] => some g
    | p :: ps =>
      match (p :: ps).foldlM (fun g p => g.mergePair (max p.1 p.2) (min p.1 p.2)) g with
      | none => none
      | some g1 =>
        match mt (g1.cands2 width k) with
        | [] => some g1
        | p :: ps =>
          match (p :: ps).foldlM (fun g p => g.mergePair (min p.1 p.2) (max p.1 p.2)) g1 with
          | none => none
          | some g2 => g2.rounds mt width k fuel

/-- contraction_tree.py:168-173: the branches are put together from the end. -/
def rebuild : List PTree → PTree → List Nm → Option PTree
  | [], cur, _ => some cur
  | b :: bs, cur, n :: names => rebuild bs (PTree.mk true n (setDiff b.subs cur.subs) b cur) names
  | _ :: _, _, [] => none

/-- contraction_tree.py:166-173: the tree put together. -/
def whole (g : Dig) : Option PTree :=
  match g.nodes.get? (-1) with
  | none => none
  | some cur => rebuild (((g.nodes.filter fun p => p.1 != -1).drop 1).reverse.map (·.2)) cur g.names

end Dig

/-- contraction_tree.py:198-280: one chain; gives how the first tree is changed.  (The last case, `children = None` after merging, does
not occur.) -/
def mergeChain (mt : List ((Int × Int) × Nat) → List (Int × Int)) (width k : Nat) (c : Chain) : Option (PTree → PTree) :=
  match toDig c with
  | none => none
  | some none => some id
  | some (some g) =>
    match g.rounds mt width k (g.nodes.length + 1) with
    | none => none
    | some g1 =>
      match g1.whole with
      | some (.node _ _ _ a b) => some (PTree.setChildren c.head.name a b)
      | _ => none

/-- contraction_tree.py:176-280: `merge_nodes`. -/
def mergeNodes (mt : List ((Int × Int) × Nat) → List (Int × Int)) (T width k : Nat) (t : PTree) : Option PTree :=
  match t.info T with
  | none => some t
  | some (r, c1, c2) =>
    match shiftStem r (if c2.tail.length ≤ c1.tail.length then c2 else c1) (if c2.tail.length ≤ c1.tail.length then c1 else c2) t with
    | none => none
    | some (t1, p, q) =>
      match mergeChain mt width k p with
      | none => none
      | some f =>
        match mergeChain mt width k (q.upd f) with
        | none => none
        | some f' => some (f' (f t1))

/-- compiler.py:252-259, contraction_tree.py:282-284: `patch`, as `_patch_order` calls it; the constants of
contraction_tree.py:9-13 are `T` (23) and `k` (14), `width` is `patch_size` (5). -/
def stemPatch {τ : Type} [NetTensor τ] (perm : List Nm → List Nm) (mt : List ((Int × Int) × Nat) → List (Int × Int)) (T width k : Nat)
    (tn : TN τ) (order : List OrderStep) : Option (List OrderStep) :=
  match fromOrder perm tn order with
  | none => none
  | some t => (mergeNodes mt T width k t).map PTree.fullOrder

end Verif
