import Verif.Model.Contract
import Verif.Model.Khp
import Verif.Model.Slicer
/-!
# Model of the order finders and of `find_order`
(acqdp/tensor_network/order_finder.py, slicer.py:211-238, tensor_network.py:44-107)

A finder is a generator; `orderAt i` is what it yields at its `i`-th `next`.  What opt_einsum, kahypar and the random numbers
give at each `next` are arguments.  Nodes hold no networks (`TVal.contract` expands them first), so `_expand_and_delta` is
`completeDelta`.  A `SlicedOrderFinder` over another one and the reading and writing of order files are left out.
-/

namespace Verif

/-- The finders that do not slice (order_finder.py:119-131 without `'sliced'`). -/
inductive PlainFinder where
  /-- order_finder.py:25-60: `'default'`: the nodes one by one, in the order `srt` gives (`order_method` `'default'` or `'vertical'`,
  or by `str` after a `TypeError`); `none` is any other exception. -/
  | names (srt : List Nm → Option (List Nm)) (path : OrderStep → List (List Nat))
  /-- order_finder.py:63-87: `'oe'`. -/
  | einsum (whole : Nat → List Nm → List (List Nat)) (path : Nat → OrderStep → List (List Nat))
  /-- kahypar_order_finder.py:113-163: `'khp'`. -/
  | hyper (part : Nat → Nat → Bool → Tanner → Nat → Nat) (cutoff : Nat) (path : Nat → OrderStep → List (List Nat))
      (cost : Nat → List OrderStep → Nat)

section
variable {R : Type} [CommSemiring R] [Star R]

/-- order_finder.py:39-60, 75-87, kahypar_order_finder.py:113-163: the order in the `i`-th scheme of `find_order`. -/
def PlainFinder.orderAt (f : PlainFinder) (tn : TN (TVal R)) (i : Nat) : Option (List OrderStep) :=
  match tn.completeDelta with
  | (_, .error _) => none
  | (tn1, .ok ()) =>
    match f with
    | .names srt path => (srt tn1.nodes.keys).bind fun l => findDefault (fun _ => l) path tn1.nodes.keys
    | .einsum whole path => findOptEinsum (whole i tn1.nodes.keys) (path i) tn1.nodes.keys
    | .hyper part cutoff path cost => khpFind (part i) cutoff (path i) (cost i) tn1

/-- The parameters of a `Slicer` and what the outside world gives: the costs of the orders it reads, and the rounds and paths of
call `i` of `_slice` (slicer.py:20-38). -/
structure SliceUse (R : Type) where
  params : SliceParams
  num : Nat
  threads : Nat
  cost : Nat → List OrderStep → Cost
  env : Nat → SliceEnv (TVal R)

/-- The scheme a slicer reads from its generator. -/
def PlainFinder.schAt (f : PlainFinder) (S : SliceUse R) (tn : TN (TVal R)) (i : Nat) : Option Sch :=
  (f.orderAt tn i).map fun o => ⟨o, S.cost i o⟩

/-- slicer.py:211-213: `Slicer.slice`, after the generator has been started (order_finder.py:112). -/
def sliceFrom (f : PlainFinder) (S : SliceUse R) (tn : TN (TVal R)) : Option (Option (Sch × List Nm)) :=
  match (List.range S.num).mapM fun j => f.schAt S tn (j + 1) with
  | none => none
  | some orders => sliceScheme S.params (S.env 0) tn orders

/-- slicer.py:226-228: the processes of round `r` each slice one order. -/
def mpRound (f : PlainFinder) (S : SliceUse R) (tn : TN (TVal R)) (r : Nat) : Option (List (Option (Sch × List Nm))) :=
  (List.range S.threads).mapM fun j =>
    (f.schAt S tn (1 + r * S.threads + j)).bind fun y => sliceScheme S.params (S.env (r * S.threads + j)) tn [y]

/-- slicer.py:224-230: rounds until there are more than `num_suc_candidates` candidates.  `none` is an exception, or that `fuel` rounds
are not enough. -/
def mpLoop (f : PlainFinder) (S : SliceUse R) (tn : TN (TVal R)) : Nat → Nat → List (Sch × List Nm) → Option (List (Sch × List Nm))
  | 0, _, _ => none
  | fuel + 1, r, cands =>
    if cands.length ≤ S.num then
      match mpRound f S tn r with
      | none => none
      | some new => mpLoop f S tn fuel (r + 1) (cands ++ new.filterMap id)
    else some cands

/-- slicer.py:231: `min(candidates, key=lambda x: (x.cost, candidates.index(x)))`. -/
def bestCand : List (Sch × List Nm) → Option (Sch × List Nm)
  | [] => none
  | y :: ys => some (ys.foldl (fun b a => if !(a.1.cost.eq b.1.cost) && a.1.cost.lt b.1.cost then a else b) y)

/-- slicer.py:222-232: `MPSlicer.slice`. -/
def mpSlice (f : PlainFinder) (S : SliceUse R) (tn : TN (TVal R)) (fuel : Nat) : Option (Option (Sch × List Nm)) :=
  (mpLoop f S tn fuel 0 []).map bestCand

/-- order_finder.py:119-131, slicer.py:235-238: `get_order_finder` and `get_slicer`. -/
inductive Finder (R : Type) where
  | plain (f : PlainFinder) (cost : List OrderStep → Cost)
  | sliced (f : PlainFinder) (S : SliceUse R)
  | mp (f : PlainFinder) (S : SliceUse R) (fuel : Nat)

/-- The finder whose generator is read. -/
def Finder.base : Finder R → PlainFinder
  | .plain f _ => f
  | .sliced f _ => f
  | .mp f _ _ => f

/-- order_finder.py:109-116: a slicer works on the completed network, and the first order of the base finder is thrown away. -/
def withBase (f : PlainFinder) (tn : TN (TVal R)) (slice : TN (TVal R) → Option (Option (Sch × List Nm))) : Option (Option Plan) :=
  match tn.completeDelta with
  | (_, .error _) => none
  | (tn1, .ok ()) =>
    match f.orderAt tn1 0 with
    | none => none
    | some _ => (slice tn1).map (Option.map fun x => ⟨x.1.cost.t, x.1.order, x.2⟩)

/-- tensor_network.py:75-107: `find_order`.  The outer option is an exception, the inner one the result `None` of a slicer. -/
def Finder.find (F : Finder R) (tn : TN (TVal R)) : Option (Option Plan) :=
  match F with
  | .plain f cost => (f.orderAt tn 0).map fun o => some ⟨(cost o).t, o, []⟩
  | .sliced f S => withBase f tn (sliceFrom f S)
  | .mp f S fuel => withBase f tn fun tn1 => mpSlice f S tn1 fuel

variable {L : Type} [AddCommMonoid L]

/-- tensor_network.py:73: `self.compile(self.find_order(**kwargs), **kwargs).execute(**kwargs)`; `compile(None)` raises (compiler.py:46). -/
def TN.contractBy (contract : TVal R → Option (Arr R)) (memory : Nat) (F : Finder R) (srt : List Nm → List Nm) (E : Engine L R) (ex : L → R)
    (tn : TN (TVal R)) : Except Err (Arr R) :=
  match F.find tn with
  | none => .error .value
  | some none => .error .attribute
  | some (some p) => tn.compileExec contract memory srt E ex p

end

end Verif
