import Verif.Model.Stem
/-!
# Model of `full_subscripts` (acqdp/tensor_network/contraction_tree.py) and of `print_order`
(acqdp/tensor_network/local_optimizer.py)

Names of edges stand for the letters of the subscripts, as in Model/Stem.
-/

namespace Verif

namespace PTree

/-- contraction_tree.py:49-54: one entry of `subscripts`: the indices of the two children and of the result. -/
structure SubStep where
  fst : List Nm
  snd : List Nm
  out : List Nm
  deriving DecidableEq

/-- contraction_tree.py:56-63: `full_subscripts`. -/
def fullSubs : PTree → List SubStep
  | leaf _ _ => []
  | node _ _ s a b => b.fullSubs ++ a.fullSubs ++ [⟨a.subs, b.subs, s⟩]

/-- local_optimizer.py:96-99: the four numbers of a line. -/
structure Line where
  a : Nat
  b : Nat
  c : Nat
  d : Nat
  sub : SubStep
  step : OrderStep
  deriving DecidableEq

/-- local_optimizer.py:96-103: a line (the numbers and names from which the text is made). -/
def lineOf (sub : SubStep) (step : OrderStep) : Line where
  a := (setMinus sub.fst sub.snd).length
  b := (setMinus sub.snd sub.fst).length
  c := (setMinus (setMeet sub.snd sub.fst) sub.out).length
  d := (setMeet (setMeet sub.snd sub.fst) sub.out).length
  sub := sub
  step := step

/-- local_optimizer.py:95-103: the loop, `i` being the number of the line (`none`: `IndexError` of `order[i]`). -/
def linesFrom (order : List OrderStep) (i : Nat) : List SubStep → Option (List Line)
  | [] => some []
  | sub :: subs =>
    match order[i]? with
    | none => none
    | some o => (linesFrom order (i + 1) subs).map (lineOf sub o :: ·)

/-- local_optimizer.py:71-74, 92-104: `print_order` after `from_order`. -/
def printOrder (t : PTree) : Option (List Line) := linesFrom t.fullOrder 0 t.fullSubs

end PTree

end Verif
