import Mathlib.Data.List.Basic
/-!
# Specification: the common shape of several partially known shapes
-/

namespace Verif

/-- `s` is the merge of the shapes `ss`: all have the same rank, and an entry of `s` is known exactly if it is
known in some of them, with that value (in particular two of them never disagree). -/
def IsMerge (ss : List (List (Option Nat))) (s : List (Option Nat)) : Prop :=
  (∀ t ∈ ss, t.length = s.length) ∧
    ∀ (i d : Nat), s[i]? = some (some d) ↔ ∃ t ∈ ss, t[i]? = some (some d)

/-- The shapes do not contradict each other. -/
def Compatible (ss : List (List (Option Nat))) : Prop :=
  ∀ t ∈ ss, ∀ t' ∈ ss, t.length = t'.length ∧
    ∀ (i d d' : Nat), t[i]? = some (some d) → t'[i]? = some (some d') → d = d'

end Verif
