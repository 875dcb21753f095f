import Verif.Model.Value
import Verif.Spec.Einsum
/-!
# Model of `ContractionTask` and `Contractor` (acqdp/tensor_network/contraction.py, contractor.py)

Python one-element lists used as cells are cell numbers; the heap holds the data cells (a pair of a log-norm
and an array) and the cells holding the value a sliced or fixed edge is currently fixed to.  Log-norms live in
an arbitrary additive monoid `L` with a map `ex` to the entries (`numpy.exp`).

`none` stands for any Python exception.
-/

namespace Verif

variable {R : Type} [CommSemiring R] {L : Type} [AddCommMonoid L]

/-! ## numpy and opt_einsum -/

/-- (symbol, dimension) pairs of the operands of an einsum. -/
def einPairs (ops : List (List Nm × Arr R)) : Dict Nm Nat := ops.flatMap fun o => o.1.zip o.2.shape

/-- Dimension of a symbol. -/
def einDim (ops : List (List Nm × Arr R)) (e : Nm) : Nat := ((einPairs ops).get? e).getD 0

/-- The operands as factors. -/
def einFactors (ops : List (List Nm × Arr R)) : List (Factor Nm R) := ops.map fun o => ⟨o.1, o.2.get⟩

/-- The checks of `numpy.einsum`: ranks match, dimensions agree, output symbols are distinct and occur.
Simplification: the broadcasting of axes of dimension 1 is not modelled (rejected here). -/
def einOk (ops : List (List Nm × Arr R)) (out : List Nm) : Prop :=
  ops ≠ [] ∧ (∀ o ∈ ops, o.1.length = o.2.shape.length) ∧
  (∀ p ∈ einPairs ops, (einPairs ops).get? p.1 = some p.2) ∧ out.Nodup ∧ ∀ e ∈ out, e ∈ (einPairs ops).keys

instance (ops : List (List Nm × Arr R)) (out : List Nm) : Decidable (einOk ops out) := by
  unfold einOk; infer_instance

/-- `numpy.einsum` in explicit mode, contractor.py:99-100.  The symbols are the edge names themselves
(`opt_einsum.get_symbol(edges.index(e))` is one-to-one on edge names). -/
def npEinsum (ops : List (List Nm × Arr R)) (out : List Nm) : Option (Arr R) :=
  if einOk ops out then
    some ⟨out.map (einDim ops), fun idx => einsum (fun e => Finset.range (einDim ops e)) (einFactors ops) out idx⟩
  else none

/-- Indices kept by one pairwise contraction: in an operand and still needed. -/
def keptEdges (x y : List Nm) (rest : List (List Nm)) (out : List Nm) : List Nm :=
  (x ++ y).dedup.filter fun e => rest.any (·.contains e) || out.contains e

/-- `opt_einsum.contract_expression(..., optimize=path)` applied to arrays (compiler.py:108-111,
contractor.py:93-97): repeatedly take two operands out and append their contraction; the last contraction
produces the output indices.  `ord` is the order opt_einsum gives to the indices of an intermediate.
Simplification: a path that does not end in one operand, or takes an operand twice, is an error. -/
def exprEval (ord : List Nm → List Nm) (out : List Nm) :
    List (Nat × Nat) → List (List Nm × Arr R) → Option (Arr R)
  | [], _ => none
  | (i, j) :: rest, ops =>
    match ops[i]?, ops[j]? with
    | some x, some y =>
      if i = j then none
      else
        let others := (ops.eraseIdx (max i j)).eraseIdx (min i j)
        match rest with
        | [] => if others.isEmpty then npEinsum [x, y] out else none
        | _ :: _ =>
          let kept := ord (keptEdges x.1 y.1 (others.map Prod.fst) out)
          match npEinsum [x, y] kept with
          | none => none
          | some r => exprEval ord out rest (others ++ [(kept, r)])
    | _, _ => none

/-- Putting the pinned values back between the free ones. -/
def spliceIdx (pins : Dict Nat Nat) : Nat → Nat → List Nat → List Nat
  | 0, _, _ => []
  | n + 1, p, js =>
    match pins.get? p with
    | some v => v :: spliceIdx pins n (p + 1) js
    | none => js.headD 0 :: spliceIdx pins n (p + 1) js.tail

/-- `numpy.moveaxis(a, idx, range(len(idx)))[tuple(vals)]`, contractor.py:86-88 -/
def Arr.fixAxes (a : Arr R) (idx vals : List Nat) : Option (Arr R) :=
  if idx.Nodup ∧ idx.length = vals.length ∧
      (idx.zip vals).all (fun p => match a.shape[p.1]? with | some d => decide (p.2 < d) | none => false) then
    some ⟨(a.shape.zipIdx.filter fun p => p.2 ∉ idx).map Prod.fst,
      fun js => a.get (spliceIdx (idx.zip vals) a.shape.length 0 js)⟩
  else none

/-- `numpy.zeros(shape)` -/
def zeroArr (shape : List Nat) : Arr R := ⟨shape, fun _ => 0⟩

/-! ## Commands -/

/-- The commands 'f' and 'c' (contractor.py:85-100); cells are numbers.  'n' is never generated by the
compiler and not modelled. -/
inductive Cmd where
  | f (lhs rhs : Nat) (idx : List Nat) (fixTo : List Nat)
  | c (lhs : List Nat) (rhs : Nat) (subs : List (List Nm)) (out : List Nm) (path : Option (List (Nat × Nat)))
  deriving DecidableEq, Repr

/-- The cells of a task. -/
structure Heap (L R : Type) where
  data : Nat → Option (L × Arr R)
  fix : Nat → Nat

/-- `rhs[0] = v` -/
def Heap.put (h : Heap L R) (c : Nat) (v : L × Arr R) : Heap L R :=
  { h with data := fun i => if i = c then some v else h.data i }

/-- Assignment to a fix cell, contraction.py:212, 275 -/
def Heap.putFix (h : Heap L R) (c : Nat) (v : Nat) : Heap L R :=
  { h with fix := fun i => if i = c then v else h.fix i }

/-- What does not change while a task runs: the index order chosen by opt_einsum, and normalisation
(contractor.py:105-113; `none`: `normalize=False`; the function gives the log of the largest modulus and the
array divided by it, or nothing if the array is zero). -/
structure Engine (L R : Type) where
  ord : List Nm → List Nm
  nrm : Option (Arr R → Option (L × Arr R)) := none

/-- contractor.py:105-115: storing the result of a contraction. -/
def Engine.finish (E : Engine L R) (s : L) (res : Arr R) : L × Arr R :=
  match E.nrm with
  | none => (s, res)
  | some f =>
    match f res with
    | none => (0, zeroArr res.shape)
    | some (l, a) => (l + s, a)

/-- contractor.py:84-115: one command. -/
def runCmd (E : Engine L R) (h : Heap L R) : Cmd → Option (Heap L R)
  | .f lhs rhs idx cells =>
    match h.data lhs with
    | none => none
    | some (s, a) =>
      match a.fixAxes idx (cells.map h.fix) with
      | none => none
      | some a' => some (h.put rhs (s, a'))
  | .c lhs rhs subs out path =>
    match lhs.mapM h.data with
    | none => none
    | some vals =>
      let ops := subs.zip (vals.map Prod.snd)
      let res := match path with
        | some p => exprEval E.ord out p ops
        | none => npEinsum ops out
      match res with
      | none => none
      | some r => if subs.length = lhs.length then some (h.put rhs (E.finish (vals.map Prod.fst).sum r)) else none

/-- contractor.py:76-119: the loop over the commands. -/
def runCmds (E : Engine L R) : List Cmd → Heap L R → Option (Heap L R)
  | [], h => some h
  | c :: cs, h => (runCmd E h c).bind (runCmds E cs)

/-! ## Tasks -/

/-- contraction.py:120-165: the attributes of a `ContractionTask`.  `pre` is the attribute `preprocess`
(`none`: not set); `openE = none` for sub-tasks. -/
structure Task (R : Type) where
  cmds : List Cmd := []
  fixDict : Dict (Nm × List Nat) Nat := []
  inputs : Dict Nm Nat := []
  output : Nat
  shape : List Nat := []
  openE : Option (List Nm) := some []
  subOut : List Nm := []
  cnt : Nat := 0
  length : Nat := 1
  data : Dict Nm (Arr R) := []
  pre : Option Bool := none

/-- contraction.py:161-164: the number of sub-tasks. -/
def fixLength (d : Dict (Nm × List Nat) Nat) : Nat := (d.map fun p => p.1.2.length).prod

/-- contraction.py:228-235: writing the data into the input cells, by position in the two sorted lists. -/
def loadCells (data : Dict Nm (Arr R)) (inputs : Dict Nm Nat) : List (Nm × Nm) → Heap L R → Option (Heap L R)
  | [], h => some h
  | (di, dd) :: ps, h =>
    match inputs.get? di, data.get? dd with
    | some c, some a => loadCells data inputs ps (h.put c (0, a))
    | _, _ => none

/-- contraction.py:218-236: `_load_data`; `srt` is `sorted` with the `key=str` fallback. -/
def Task.loadData (srt : List Nm → List Nm) (t : Task R) (h : Heap L R) : Option (Task R × Heap L R) :=
  if t.inputs.length ≤ t.data.length then
    match loadCells t.data t.inputs ((srt t.inputs.keys).zip (srt t.data.keys)) h with
    | none => none
    | some h' => some ({ t with pre := some false }, h')
  else none

/-- contraction.py:272-275: setting the fix cells of sub-task `k`. -/
def setCells : Dict (Nm × List Nat) Nat → Nat → Heap L R → Heap L R
  | [], _, h => h
  | ((_, vals), c) :: d, k, h => setCells d (k / vals.length) (h.putFix c (vals.getD (k % vals.length) 0))

/-- contraction.py:267-270: what happens on the first access. -/
def Task.prepare (srt : List Nm → List Nm) (E : Engine L R) (t : Task R) (h : Heap L R) :
    Option (Task R × Heap L R) :=
  match t.pre with
  | none => none
  | some true => some (t, h)
  | some false =>
    match t.loadData srt h with
    | none => none
    | some (t', h') =>
      match runCmds { E with nrm := none } (t'.cmds.take t'.cnt) h' with
      | none => none
      | some h'' => some ({ t' with pre := some true }, h'')

/-- contraction.py:271, 276-283: the sub-task object (it does not depend on the number). -/
def Task.sub (t : Task R) : Task R :=
  { t with cmds := t.cmds.drop t.cnt, fixDict := [], length := 1, cnt := 0, openE := none, data := [], inputs := [] }

/-- contraction.py:259-283: `__getitem__`; the number goes into the shared fix cells. -/
def Task.getItem (srt : List Nm → List Nm) (E : Engine L R) (t : Task R) (k : Nat) (h : Heap L R) :
    Option (Task R × Heap L R) :=
  match t.prepare srt E h with
  | none => none
  | some (t', h') =>
    if t'.fixDict.all fun p => p.1.2 ≠ [] then some (t', setCells t'.fixDict k h') else none

/-- contractor.py:120-122: running a (sub-)task and reading the result. -/
def Task.run (E : Engine L R) (ex : L → R) (t : Task R) (h : Heap L R) : Option (Heap L R × Arr R) :=
  match runCmds E t.cmds h with
  | none => none
  | some h' =>
    match h'.data t.output with
    | none => none
    | some (s, a) => some (h', ⟨a.shape, fun idx => ex s * a.get idx⟩)

/-- contractor.py:51-52: `{i: _execute(tasks[i]) for i in lst}` -/
def Task.runAll (srt : List Nm → List Nm) (E : Engine L R) (ex : L → R) (t : Task R) :
    List Nat → Heap L R → Dict Nat (Arr R) → Option (Task R × Heap L R × Dict Nat (Arr R))
  | [], h, d => some (t, h, d)
  | k :: ks, h, d =>
    match t.getItem srt E k h with
    | none => none
    | some (t', h') =>
      match t'.sub.run E ex h' with
      | none => none
      | some (h'', r) => t'.runAll srt E ex ks h'' (d.set k r)

/-- `sum([...])` of arrays of equal shape (`0` for the empty list), contraction.py:169 -/
def sumArrs (l : List (Arr R)) : Arr R :=
  ⟨match l with | [] => [] | a :: _ => a.shape, fun idx => (l.map fun a => a.get idx).sum⟩

/-- contraction.py:182-187: the dictionary `ax` of sub-task `k` (positions, not values). -/
def mergeAx (subOut : List Nm) : Dict (Nm × List Nat) Nat → Nat → Dict Nm Nat → Dict Nm Nat
  | [], _, ax => ax
  | ((e, vals), _) :: d, k, ax =>
    if e ∈ subOut then mergeAx subOut d k ax
    else mergeAx subOut d (k / vals.length) (ax.set e (k % vals.length))

/-- The coordinate of an index tuple on an open edge: `open_edges.index(e)`. -/
def coord (opn : List Nm) (idx : List Nat) (e : Nm) : Nat := idx.getD (opn.idxOf e) 0

/-- contraction.py:172-176: the axes order of the accumulator. -/
def mergeAxes (opn subOut : List Nm) : List Nat :=
  ((List.range opn.length).filter fun i => decide (opn.getD i .nil ∉ subOut)) ++ subOut.map fun e => opn.idxOf e

/-- contraction.py:188-192: one accumulation is possible: keys present, indices in range, shapes equal. -/
def mergeFits (dims : Nm → Nat) (ids subOut : List Nm) (ax : Dict Nm Nat) (r : Arr R) : Bool :=
  ids.all (fun e => match ax.get? e with | some v => decide (v < dims e) | none => false) &&
  decide (r.shape = subOut.map dims)

/-- contraction.py:167-195: `_merge`.  The entry of the result at `idx` collects the sub-results whose
accumulator position `ls` is the one `idx` has on the sliced open edges. -/
def Task.merge (t : Task R) (res : Dict Nat (Arr R)) : Option (Arr R) :=
  match t.openE with
  | none => some (sumArrs (res.map Prod.snd))
  | some opn =>
    if t.length = 1 ∨ t.shape = [] then some (sumArrs (res.map Prod.snd))
    else
      let ids := opn.filter (· ∉ t.subOut)
      let axes := mergeAxes opn t.subOut
      let ax : Nat → Dict Nm Nat := fun k => mergeAx t.subOut t.fixDict k []
      if res ≠ [] ∧ opn.length = t.shape.length ∧ axes.Nodup ∧ axes.length = t.shape.length ∧
          (∀ e ∈ t.subOut, e ∈ opn) ∧
          (res.all fun p => mergeFits (coord opn t.shape) ids t.subOut (ax p.1) p.2) then
        some ⟨t.shape, fun idx => (res.map fun p =>
          if ids.map (coord opn idx) = ids.map (fun e => ((ax p.1).get? e).getD 0)
          then p.2.get (t.subOut.map (coord opn idx)) else 0).sum⟩
      else none

/-- contractor.py:33-63: `execute` (numpy engine); `lst = None` is `range(length)`. -/
def Task.execute (srt : List Nm → List Nm) (E : Engine L R) (ex : L → R) (t : Task R) (lst : Option (List Nat))
    (h : Heap L R) : Option (Task R × Heap L R × Arr R) :=
  match t.loadData srt h with
  | none => none
  | some (t1, h1) =>
    match t1.runAll srt E ex (lst.getD (List.range t1.length)) h1 [] with
    | none => none
    | some (t2, h2, d) =>
      match t2.merge d with
      | none => none
      | some r => some (t2, h2, r)

/-- contraction.py:197-216: `update_fix`; `fixOf e` is the `fix_to` of the edge in the given network
(outer `none`: no such edge). -/
def updateFixGo (fixOf : Nm → Option (Option (List Nat))) :
    Dict (Nm × List Nat) Nat → Dict (Nm × List Nat) Nat → Heap L R → Option (Dict (Nm × List Nat) Nat × Heap L R)
  | [], new, h => some (new, h)
  | ((e, vals), c) :: d, new, h =>
    match fixOf e with
    | none => none
    | some none => updateFixGo fixOf d (new.set (e, vals) c) h
    | some (some l) =>
      match l with
      | [] => none
      | v :: _ => updateFixGo fixOf d (new.set (e, l) c) (h.putFix c v)

/-- contraction.py:197-216: `update_fix` (the attribute `length` is not recomputed). -/
def Task.updateFix {τ : Type} (t : Task R) (tn : TN τ) (h : Heap L R) : Option (Task R × Heap L R) :=
  match updateFixGo (fun e => (tn.edges.get? e).map EdgeRec.fix) t.fixDict [] h with
  | none => none
  | some (d, h') => some ({ t with fixDict := d, pre := some false }, h')

/-- contraction.py:238-246: `set_data`. -/
def Task.setData (t : Task R) (data : Dict Nm (Arr R)) : Task R := { t with data := data }

end Verif
