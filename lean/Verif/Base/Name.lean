import Mathlib.Logic.Basic
/-!
# Python names

Node and edge names are arbitrary Python hashables.  The model uses integers, strings and (nested)
tuples; the tuple `(a, b)` is `cons a (cons b nil)`.  `None` is not a name.
-/

namespace Verif

/-- Hashable names: integers, strings, tuples. -/
inductive Nm where
  | int (n : Int)
  | str (s : String)
  | nil
  | cons (hd tl : Nm)
  deriving DecidableEq, Repr

/-- The pair `(a, b)`. -/
def Nm.pair (a b : Nm) : Nm := .cons a (.cons b .nil)

/-- The triple `(a, b, c)`. -/
def Nm.triple (a b c : Nm) : Nm := .cons a (.cons b (.cons c .nil))

end Verif
