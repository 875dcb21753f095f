import Verif.Base.Name
import Mathlib.Data.List.Perm.Basic
import Mathlib.Data.Multiset.Defs
/-!
# Specification: valid contraction orders

An order is a list of steps (operand names, name of the result).  It is valid for a collection of named
tensors if every step consumes current tensors (each once) and its result gets a name no other current tensor
has, and in the end exactly one tensor is left.
-/

namespace Verif

/-- `ValidOrder ns o last`: starting from tensors named `ns`, the steps `o` can be carried out and leave one
tensor, named `last`. -/
inductive ValidOrder : List Nm → List (List Nm × Nm) → Nm → Prop
  | done (z : Nm) : ValidOrder [z] [] z
  | step {ns xs rest : List Nm} {z last : Nm} {o : List (List Nm × Nm)} :
      ns.Perm (xs ++ rest) → xs ≠ [] → z ∉ rest → ValidOrder (z :: rest) o last → ValidOrder ns ((xs, z) :: o) last

/-- Every step has two operands. -/
def Pairwise2 (o : List (List Nm × Nm)) : Prop := ∀ s ∈ o, s.1.length = 2

/-- No name is given twice: the results are distinct from each other and from the initial tensors. -/
def SingleAssignment (ns : List Nm) (o : List (List Nm × Nm)) : Prop := (ns ++ o.map (·.2)).Nodup

/-- A step up to the order of its operands. -/
def unordered (s : List Nm × Nm) : Multiset Nm × Nm := ((s.1 : Multiset Nm), s.2)

/-- `ValidPath n p`: `p` contracts `n` operands to one.  An entry gives the positions of one or two operands, which
are taken out of the list while the result is put at its end (the convention of `opt_einsum`). -/
inductive ValidPath : Nat → List (List Nat) → Prop
  | done : ValidPath 1 []
  | one {n i : Nat} {p : List (List Nat)} : i < n → ValidPath n p → ValidPath n ([i] :: p)
  | two {n i j : Nat} {p : List (List Nat)} : i < n + 1 → j < n + 1 → i ≠ j → ValidPath n p →
      ValidPath (n + 1) ([i, j] :: p)

end Verif
