import Verif.Model.Contract
import Mathlib.Data.List.Sort
/-!
# Model of the order tools
(acqdp/tensor_network/local_optimizer.py, contraction.py:94-110, contraction_tree.py:23-80, compiler.py:225-250)

`opt_einsum.contract_path` is a parameter: for each step it gives some path.  The lengths of the index strings,
which guide the choices, are parameters too.
-/

namespace Verif

/-! ## Counter -/

/-- contraction.py:104-106: the number in an operand name `('#', k)`, otherwise 0. -/
def hashNum : Nm → Int
  | .cons (.str "#") (.cons (.int k) .nil) => k
  | _ => 0

/-- contraction.py:100-106: `OrderCounter(order)` starts at the largest number of an operand name `('#', k)`. -/
def counterStart (order : List OrderStep) : Int :=
  (order.flatMap (·.1)).foldl (fun k x => max k (hashNum x)) 0

/-- contraction.py:96-98: the name given out when the counter stands at `k`. -/
def freshName (k : Int) : Nm := Nm.pair (.str "#") (.int (k + 1))

/-! ## From paths to named orders -/

/-- local_optimizer.py:134-145: the loop over the path.  State: the current operand list, the steps produced, the
counter.  `last` tells whether this is the last path entry (line 137).  `none` is an `IndexError`. -/
def pairLoop (rhs : Nm) : List (List Nat) → List Nm → List OrderStep → Int → Option (List OrderStep × Int)
  | [], _, acc, k => some (acc, k)
  | [i] :: path, lhs, acc, k =>
    match lhs[i]? with
    | none => none
    | some x =>
      if path.isEmpty then pairLoop rhs path (lhs.eraseIdx i) (acc ++ [([x], rhs)]) k
      else pairLoop rhs path (lhs.eraseIdx i ++ [x]) acc k
  | (i :: j :: _) :: path, lhs, acc, k =>
    match lhs[i]?, lhs[j]? with
    | some x, some y =>
      pairLoop rhs path ((lhs.eraseIdx (max i j)).eraseIdx (min i j) ++ [freshName k])
        (acc ++ [([x, y], freshName k)]) (k + 1)
    | _, _ => none
  | [] :: _, _, _, _ => none

/-- local_optimizer.py:149: `new_order[-1][1] = rhs`; `none` is the `IndexError` of an empty list. -/
def setLastName (rhs : Nm) : List OrderStep → Option (List OrderStep)
  | [] => none
  | [s] => some [(s.1, rhs)]
  | s :: t :: l => (setLastName rhs (t :: l)).map (s :: ·)

/-- local_optimizer.py:129-150: `path_to_paired_order`; returns the steps and the counter afterwards. -/
def pathToPaired (step : OrderStep) (path : List (List Nat)) (k : Int) : Option (List OrderStep × Int) :=
  match pairLoop step.2 path step.1 [] k with
  | none => none
  | some (o, k') => (setLastName step.2 o).map fun o' => (o', k')

/-- local_optimizer.py:35-39: the loop of `order_to_contraction_scheme` with the paths opt_einsum found for the
steps. -/
def resolveLoop (path : OrderStep → List (List Nat)) : List OrderStep → Int → Option (List OrderStep)
  | [], _ => some []
  | s :: o, k =>
    match pathToPaired s (path s) k with
    | none => none
    | some (new, k') => (resolveLoop path o k').map (new ++ ·)

/-- local_optimizer.py:30-44: the order computed by `order_to_contraction_scheme` (the cost is left out). -/
def resolveOrder (path : OrderStep → List (List Nat)) (order : List OrderStep) : Option (List OrderStep) :=
  resolveLoop path order (counterStart order)

/-- order_finder.py:29-60: the default order finder, with the pass through the resolver in line 58. -/
def findDefault (srt : List Nm → List Nm) (path : OrderStep → List (List Nat)) (nodes : List Nm) :
    Option (List OrderStep) :=
  resolveOrder path (defaultOrder (srt nodes))

/-- order_finder.py:75-87: `OptEinsumOrderFinder.find_order`: the path of the whole network is turned into an order
by a counter starting at 0, then resolved again. -/
def findOptEinsum (whole : List (List Nat)) (path : OrderStep → List (List Nat)) (nodes : List Nm) :
    Option (List OrderStep) :=
  if nodes.length > 1 then
    match pathToPaired (nodes, .str "#") whole 0 with
    | none => none
    | some (o, _) => resolveOrder path o
  else some []

/-- local_optimizer.py:60-66: `order_to_path`; `none` is a name that is not current. -/
def orderToPath : List Nm → List OrderStep → Option (List (List Nat))
  | _, [] => some []
  | ns, (x :: y :: _, z) :: o =>
    if x ∈ ns ∧ y ∈ ns then
      let i := ns.idxOf x
      let j := ns.idxOf y
      (orderToPath ((ns.eraseIdx (max i j)).eraseIdx (min i j) ++ [z]) o).map ([i, j] :: ·)
    else none
  | _, (_, _) :: _ => none

/-! ## Flattening -/

/-- local_optimizer.py:193-195: the position and operands of the last step before `cnt` that produces `l`. -/
def producer (pre : List OrderStep) (l : Nm) : Option (Nat × List Nm) :=
  (pre.zipIdx.reverse.find? fun p => p.1.2 = l).map fun p => (p.2, p.1.1)

/-- local_optimizer.py:204-217: the scan over the operands.  Returns the operand to inline with the position and
operands of its producer, and the number of skipped candidates. -/
def pickOperand (size offset : Nat) (sz : Nm → Nat) (pre : List OrderStep) (len : Nat) :
    List Nm → Nat → Option (Nm × Nat × List Nm) × Nat
  | [], c => (none, c)
  | l :: ls, c =>
    match producer pre l with
    | none => pickOperand size offset sz pre len ls c
    | some (i, xs) =>
      if sz l < 7 ∨ xs.length + len > size then pickOperand size offset sz pre len ls c
      else if c < offset then pickOperand size offset sz pre len ls (c + 1)
      else (some (l, i, xs), c)

/-- local_optimizer.py:202-203: operands by decreasing size. -/
def largestList (sz : Nm → Nat) (ops : List Nm) : List Nm :=
  (ops.eraseDups.insertionSort fun a b => sz a ≤ sz b).reverse

/-- local_optimizer.py:192-218: the loop of `_flatten_order`.  The step looked at is the last of `pre ++ [o]`, the
steps after it are `post`; `fuel` bounds the number of rounds (each round shortens `pre` by one). -/
def flattenLoop (size offset : Nat) (sz : Nm → Nat) :
    Nat → List OrderStep → OrderStep → List OrderStep → Nat → List OrderStep
  | 0, pre, o, post, _ => pre ++ o :: post
  | fuel + 1, pre, o, post, c =>
    if pre = [] then pre ++ o :: post
    else
      let back (c : Nat) : List OrderStep :=
        match pre.getLast? with
        | none => pre ++ o :: post
        | some p => flattenLoop size offset sz fuel pre.dropLast p (o :: post) c
      if o.1.length ≥ size then back c
      else
        match pickOperand size offset sz pre o.1.length (largestList sz o.1) c with
        | (some (l, i, xs), c') => flattenLoop size offset sz fuel (pre.eraseIdx i) (o.1.erase l ++ xs, o.2) post c'
        | (none, c') => back c'

/-- local_optimizer.py:181-218: `_flatten_order`; `sz` is the table of tensor ranks. -/
def flattenOrder (size offset : Nat) (sz : Nm → Nat) (order : List OrderStep) : List OrderStep :=
  match order.getLast? with
  | none => order
  | some o => flattenLoop size offset sz order.length order.dropLast o [] 0

/-- local_optimizer.py:220-227: `optimize`; each round has its own random offset, ranks and paths. -/
def optimizeOrder (size : Nat) :
    List (Nat × (Nm → Nat) × (OrderStep → List (List Nat))) → List OrderStep → Option (List OrderStep)
  | [], order => some order
  | (offset, sz, path) :: rounds, order =>
    match resolveOrder path (flattenOrder size offset sz order) with
    | none => none
    | some order' => optimizeOrder size rounds order'

/-- order_finder.py:29-60 and slicer.py:48-50: the default order of a completed network, resolved into pairwise steps
and then improved by some rounds of local optimisation; `width` is the computed cost. -/
def resolvedFinder {τ : Type} (srt : List Nm → List Nm) (path : OrderStep → List (List Nat)) (size : Nat)
    (rounds : List (Nat × (Nm → Nat) × (OrderStep → List (List Nat)))) (width : TN τ → List OrderStep → Nat) (tn : TN τ) :
    Option Plan :=
  match findDefault srt path tn.nodes.keys with
  | none => none
  | some o =>
    match optimizeOrder size rounds o with
    | none => none
    | some o' => some ⟨width tn o', o', []⟩

/-! ## Contraction trees -/

/-- contraction_tree.py:16-50: a contraction tree; a step has one or two children, the longer one second. -/
inductive CTree where
  | leaf (name : Nm)
  | one (name : Nm) (c : CTree)
  | two (name : Nm) (a b : CTree)

namespace CTree

/-- contraction_tree.py:37: the name of the tensor the tree computes. -/
def name : CTree → Nm
  | leaf n => n
  | one n _ => n
  | two n _ _ => n

/-- contraction_tree.py:72-80: `full_order`, the steps of the subtrees (longer child first) and then the own one. -/
def fullOrder : CTree → List OrderStep
  | leaf _ => []
  | one n c => c.fullOrder ++ [([c.name], n)]
  | two n a b => b.fullOrder ++ a.fullOrder ++ [([a.name, b.name], n)]

/-- contraction_tree.py:46: the children are sorted (stably) by the length of their index strings. -/
def mk2 (len : Nm → Nat) (n : Nm) (a b : CTree) : CTree :=
  if len a.name ≤ len b.name then two n a b else two n b a

end CTree

/-- contraction_tree.py:30-33: one step of `from_order`; a step with other than one or two operands is rejected (by
the assertion in line 77), as is an unknown operand (line 33). -/
def treeStep (len : Nm → Nat) (d : Dict Nm CTree) (s : OrderStep) : Option (Dict Nm CTree) :=
  match s.1 with
  | [x] =>
    match d.get? x with
    | some t => some (d.set s.2 (.one s.2 t))
    | none => none
  | [x, y] =>
    match d.get? x, d.get? y with
    | some t, some u => some (d.set s.2 (CTree.mk2 len s.2 t u))
    | _, _ => none
  | _ => none

/-- contraction_tree.py:23-34: `from_order`, then `full_order`; `len` is the length of the index string of each
tensor. -/
def treeOrder (len : Nm → Nat) (nodes : List Nm) (order : List OrderStep) : Option (List OrderStep) :=
  match order.foldlM (treeStep len) (nodes.map fun n => (n, CTree.leaf n)) with
  | none => none
  | some d => (d.get? (.str "#")).map CTree.fullOrder

/-! ## Reorganising at compile time -/

/-- compiler.py:235-250: the loop of `_reorg_order`; `live` is `node_set`, each round moves the first small step whose
operands are present.  `fuel` bounds the rounds (each shortens the order). -/
def reorgLoop (thres : Nat) (sz : Nm → Nat) :
    Nat → List Nm → List OrderStep → List OrderStep → List OrderStep × List OrderStep
  | 0, _, init, order => (init, order)
  | fuel + 1, live, init, order =>
    match order.find? fun o => decide (sz o.2 < thres) && o.1.all fun a => live.contains a with
    | none => (init, order)
    | some o =>
      reorgLoop thres sz fuel (o.2 :: o.1.foldl (fun s a => s.erase a) live) (init ++ [o]) (order.erase o)

/-- compiler.py:225-250: `_reorg_order`; first the order is read off the contraction tree (line 228). -/
def reorgOrder (thres : Nat) (sz len : Nm → Nat) (nodes : List Nm) (order : List OrderStep) :
    Option (List OrderStep × List OrderStep) :=
  match treeOrder len nodes order with
  | none => none
  | some o => some (reorgLoop thres sz o.length nodes [] o)

end Verif
