import Verif.Model.Compile
/-!
# Model of `TensorNetwork.contract`, `compile` and the default order
(acqdp/tensor_network/tensor_network.py:44-118, order_finder.py:29-60)

`contractWith` is applied to a network whose nodes hold no networks, so `expand` in `_expand_and_delta`
(tensor_network.py:704-705) has nothing to do; `TVal.contract` in ContractFull expands first.
-/

namespace Verif

variable {R : Type} [CommSemiring R] {L : Type} [AddCommMonoid L]

/-- What the compiler reads of a `ContractionScheme` (contraction.py:40-60): the width `cost.t`, the order, the
sliced edges. -/
structure Plan where
  width : Nat
  order : List OrderStep
  slices : List Nm

/-- order_finder.py:52-57: the steps after the first node; `i` counts them. -/
def defaultSteps (k : Nm) (i : Nat) : List Nm → List OrderStep
  | [] => []
  | [n] => [([n, k], .str "#")]
  | n :: m :: ns => ([n, k], Nm.pair (.str "#") (.int i)) :: defaultSteps (Nm.pair (.str "#") (.int i)) (i + 1) (m :: ns)

/-- order_finder.py:49-58: the default order contracts the sorted nodes one by one. -/
def defaultOrder : List Nm → List OrderStep
  | [] => []
  | k :: ns => defaultSteps k 0 ns

/-- order_finder.py:29-60: `OrderFinder.find_order` with `order_method='default'` on the completed network.
`srt` sorts the node names; `width` is the cost opt_einsum computes for the steps. -/
def defaultFinder {τ : Type} (srt : List Nm → List Nm) (width : TN τ → List OrderStep → Nat) (tn : TN τ) : Option Plan :=
  let o := defaultOrder (srt tn.nodes.keys)
  some ⟨width tn o, o, []⟩

/-- contractor.py:33-63: `execute()` of a task that the compiler may have failed to produce. -/
def runCompiled (srt : List Nm → List Nm) (E : Engine L R) (ex : L → R) :
    Except Err (Task R × Heap L R) → Except Err (Arr R)
  | .error e => .error e
  | .ok (T, h) =>
    match T.execute srt E ex none h with
    | none => .error .value
    | some (_, _, r) => .ok r

/-- tensor_network.py:109-118, compiler.py:45-56 and contractor.py:33-63 for a completed network:
`Compiler(...).compile(tn, scheme)` followed by `execute()`. -/
def compileRun {τ : Type} (contract : τ → Option (Arr R)) (memory : Nat) (srt : List Nm → List Nm) (E : Engine L R)
    (ex : L → R) (tn : TN τ) (p : Plan) : Except Err (Arr R) :=
  runCompiled srt E ex (compile contract memory tn p.width p.order p.slices)

namespace TN

variable [Star R]

/-- compiler.py:45: `compile(scheme)` completes (a copy of) the network first; then `execute()`. -/
def compileExec (contract : TVal R → Option (Arr R)) (memory : Nat) (srt : List Nm → List Nm) (E : Engine L R)
    (ex : L → R) (tn : TN (TVal R)) (p : Plan) : Except Err (Arr R) :=
  match tn.completeDelta with
  | (_, .error e) => .error e
  | (tn', .ok ()) => compileRun contract memory srt E ex tn' p

/-- tensor_network.py:44-73: `contract`; `finder` is the order finder applied to the completed network. -/
def contractWith (contract : TVal R → Option (Arr R)) (memory : Nat) (finder : TN (TVal R) → Option Plan)
    (srt : List Nm → List Nm) (E : Engine L R) (ex : L → R) (tn : TN (TVal R)) : Except Err (Arr R) :=
  match tn.completeDelta with
  | (_, .error e) => .error e
  | (tn', .ok ()) =>
    match finder tn' with
    | none => .error .value
    | some p => tn.compileExec contract memory srt E ex p

end TN

/-- tensor.py:102-105: `Tensor.contract` returns the array. -/
def arrContract : TVal R → Option (Arr R)
  | .ten a => a
  | _ => none

end Verif
