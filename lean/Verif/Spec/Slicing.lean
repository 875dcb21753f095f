import Verif.Base.Name
/-!
# Specification: slices of a tensor by a sequence of fixed indices

Each entry `(i, v)` fixes index `i` (counted after the earlier fixes) to the value `v`.
-/

namespace Verif

/-- The index of the original tensor selected by an index of the slice. -/
def unslice : List (Nat × Nat) → List Nat → List Nat
  | [], idx => idx
  | (i, v) :: fs, idx => (unslice fs idx).insertIdx i v

/-- The shape of the slice. -/
def sliceShape : List (Nat × Nat) → List Nat → List Nat
  | [], sh => sh
  | (i, _) :: fs, sh => sliceShape fs (sh.eraseIdx i)

/-- The fixes are in range. -/
def FixesIn : List (Nat × Nat) → List Nat → Prop
  | [], _ => True
  | (i, v) :: fs, sh => (∃ d, sh[i]? = some d ∧ v < d) ∧ FixesIn fs (sh.eraseIdx i)

end Verif
