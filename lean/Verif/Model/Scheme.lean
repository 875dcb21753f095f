import Verif.Base.Name
import Verif.Model.Cost
/-!
# Model of `ContractionScheme.dump` / `load` (acqdp/tensor_network/contraction.py)

The JSON text layer (`json.dump`, `json.load`) is not modelled: a file is the JSON value written to
it.  `json.dump` writes both Python lists and tuples as JSON arrays.
-/

namespace Verif

/-- JSON values occurring in scheme files (numbers are integers); the array `[x, y]` is
`cons x (cons y nil)`. -/
inductive J where
  | int (n : Int)
  | str (s : String)
  | nil
  | cons (hd tl : J)
  deriving DecidableEq, Repr

/-- One step `[[operands...], result]` of a contraction order (contraction.py:46). -/
abbrev Step := List Nm × Nm

/-- contraction.py:52-59: a contraction scheme. -/
structure Scheme where
  order : List Step
  slices : List Nm
  cost : Cost
  deriving DecidableEq, Repr

/-- The JSON object written by `dump`, contraction.py:66-71. -/
structure JFile where
  contractions : J
  slices : J
  cost : J
  deriving DecidableEq, Repr

/-- What `json.dump` writes for a name: tuples become arrays. -/
def Nm.toJ : Nm → J
  | .int n => .int n
  | .str s => .str s
  | .nil => .nil
  | .cons a b => .cons a.toJ b.toJ

/-- What `json.dump` writes for a Python list. -/
def J.ofList : List J → J
  | [] => .nil
  | x :: xs => .cons x (J.ofList xs)

/-- contraction.py:61-73: `dump`. -/
def Scheme.dump (s : Scheme) : JFile where
  contractions := J.ofList (s.order.map fun st =>
    J.ofList [J.ofList (st.1.map Nm.toJ), st.2.toJ])
  slices := J.ofList (s.slices.map Nm.toJ)
  cost := J.ofList [.int s.cost.s, .int s.cost.t, .int s.cost.k]

/-- contraction.py:83-86: `tuplize`. -/
def J.tuplize : J → Nm
  | .int n => .int n
  | .str s => .str s
  | .nil => .nil
  | .cons a b => .cons a.tuplize b.tuplize

/-- Iterating over a JSON array (`none`: not an array). -/
def J.toList : J → Option (List J)
  | .nil => some []
  | .cons x xs => (J.toList xs).map (x :: ·)
  | _ => none

/-- contraction.py:88-89: one element of the comprehension, unpacked as `(l0, l1), l`;
`none` models the `ValueError` of a failing unpack. -/
def J.loadStep (j : J) : Option Step := do
  let [ops, l] ← j.toList | none
  let [l0, l1] ← ops.toList | none
  pure ([l0.tuplize, l1.tuplize], l.tuplize)

/-- A non-negative JSON integer. -/
def J.toNat : J → Option Nat
  | .int (.ofNat n) => some n
  | _ => none

/-- contraction.py:91: `ContractionCost(*res['cost'])` with three numbers. -/
def J.loadCost (j : J) : Option Cost := do
  let [s, t, k] ← j.toList | none
  pure ⟨← s.toNat, ← t.toNat, ← k.toNat⟩

/-- contraction.py:75-91: `load` (`none`: an exception). -/
def Scheme.load (f : JFile) : Option Scheme := do
  let order ← (← f.contractions.toList).mapM J.loadStep
  let slices := (← f.slices.toList).map J.tuplize
  let cost ← f.cost.loadCost
  pure ⟨order, slices, cost⟩

end Verif
