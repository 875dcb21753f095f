import Verif.Model.Stem
import Verif.Model.Cost
/-!
# Model of `ContractionTree.flip_branch` and the costs of a tree (acqdp/tensor_network/contraction_tree.py:82-115)

`perm` lists a python set in some order, `gt` is the comparison of strings.  Simplification: every inner node has two children
(with one child, `self.children[1]` is an `IndexError`).
-/

namespace Verif

namespace PTree

/-- contraction_tree.py:82-87: `step_cost`; `all_subscripts` (:40-47, :110) is the set of the indices of the children. -/
def stepCost : PTree → Cost
  | leaf _ _ => ⟨1, 1, 0⟩
  | node _ _ s a b => ⟨2 ^ (a.subs ++ b.subs).dedup.length, 2 ^ s.length, 0⟩

/-- contraction_tree.py:89-94: `total_cost`. -/
def totalCost : PTree → Cost
  | leaf n s => (leaf n s).stepCost
  | node new n s a b => ((node new n s a b).stepCost.iadd a.totalCost).iadd b.totalCost

/-- contraction_tree.py:104: the indices of the new stem, for the indices of `stem0`, `branch1`, `self` and `branch0`. -/
def imagSubs (perm : List Nm → List Nm) (stem0 branch1 self branch0 : List Nm) : List Nm :=
  perm (setMeet (stem0 ++ branch1) (self ++ branch0))

/-- contraction_tree.py:97-110: what `flip_branch` does at the root; `T` is `stem_size`. -/
def flipRoot (T : Nat) (perm : List Nm → List Nm) (gt : List Nm → List Nm → Bool) : PTree → PTree × Bool
  | node new n s branch1 (node new1 n1 s1 branch0 stem0) =>
    let im := imagSubs perm stem0.subs branch1.subs s branch0.subs
    if T ≤ s.length ∧ (im.length < s1.length ∨ im.length = s1.length ∧ gt branch0.subs branch1.subs = true) then
      (node new n s branch0 (mk true n1 im branch1 stem0), true)
    else (node new n s branch1 (node new1 n1 s1 branch0 stem0), false)
  | t => (t, false)

/-- The number of nodes (no code). -/
def size : PTree → Nat
  | leaf _ _ => 1
  | node _ _ _ a b => 1 + a.size + b.size

/-- contraction_tree.py:96-115: `flip_branch`, with a bound on the depth of the recursion; the tree afterwards and the returned flag. -/
def flipBranch (T : Nat) (perm : List Nm → List Nm) (gt : List Nm → List Nm → Bool) : Nat → PTree → PTree × Bool
  | 0, t => (t, false)
  | k + 1, t =>
    match flipRoot T perm gt t with
    | (leaf n s, f) => (leaf n s, f)
    | (node new n s a b, f) =>
      (node new n s (flipBranch T perm gt k a).1 (flipBranch T perm gt k b).1,
        f || (flipBranch T perm gt k a).2 || (flipBranch T perm gt k b).2)

end PTree

end Verif
