import Verif.Spec.Order
import Mathlib.Data.Finset.Card
/-!
# Specification: the cost of a contraction path

The operands are given by their sets of indices, all of dimension two.  Contracting two operands keeps the indices that
other operands or the result of the whole contraction need.
-/

namespace Verif

/-- The cost of contracting operands with the indices `s` and `t` to one with the indices `keep`: an operation for each
value of all the indices, and twice that if something is summed. -/
def contractionCost (s t keep : Finset Nat) : Nat :=
  (if s ∪ t ⊆ keep then 1 else 2) * 2 ^ (s ∪ t).card

/-- The indices of some of the operands. -/
def indexUnion (ops : List (Finset Nat)) : Finset Nat := ops.foldr (· ∪ ·) ∅

/-- The cost of contracting the operands `ops` along a path of pairs of positions (the two operands are taken out and the
result put at the end), if the indices `out` remain in the end. -/
def pathCost (out : Finset Nat) : List (Finset Nat) → List (Nat × Nat) → Nat
  | _, [] => 0
  | ops, (i, j) :: path =>
    let s := ops.getD i ∅
    let t := ops.getD j ∅
    let rest := (ops.eraseIdx (max i j)).eraseIdx (min i j)
    let keep := (s ∪ t) ∩ (indexUnion rest ∪ out)
    contractionCost s t keep + pathCost out (rest ++ [keep]) path

/-- A list of vertices is a path of a graph: each is a neighbour of the one before, and none occurs twice. -/
def IsGraphPath (adj : Nat → List Nat) (l : List Nat) : Prop := l.IsChain (fun x y => y ∈ adj x) ∧ l.Nodup

/-- The weight of a list of vertices. -/
def listWeight (w : Nat → Nat) (l : List Nat) : Nat := (l.map w).sum

end Verif
