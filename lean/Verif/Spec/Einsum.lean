import Verif.Base.Sum
import Mathlib.Data.List.Dedup
/-!
# Specification: the Einstein sum of a network

A network is a list of factors (a tensor together with the edges on its legs), a finite range of
values for every edge, and the list of open edges.  Its value at an index list is the sum over all
assignments of values to the edges in use that agree with the index list on the open edges, of the
product of the tensor entries.  Repeated legs, repeated open edges, open edges touching no tensor and
hyperedges of any degree need no special treatment.
-/

namespace Verif

variable {E : Type} [DecidableEq E] {R : Type} [CommSemiring R]

/-- A tensor placed on a list of edges (one per leg). -/
structure Factor (E R : Type) where
  legs : List E
  ten : List Nat → R

/-- Entry of a factor selected by an assignment. -/
def Factor.at (f : Factor E R) (a : E → Nat) : R := f.ten (f.legs.map a)

/-- Product of the selected entries. -/
def prodAt (fs : List (Factor E R)) (a : E → Nat) : R := (fs.map fun f => f.at a).prod

/-- The edges in use: on some leg, or open. -/
def usedEdges (fs : List (Factor E R)) (opn : List E) : List E :=
  (fs.flatMap Factor.legs ++ opn).dedup

/-- The Einstein sum. -/
def einsum (dom : E → Finset Nat) (fs : List (Factor E R)) (opn : List E) (idx : List Nat) : R :=
  sumOver dom (usedEdges fs opn) (fun a => if opn.map a = idx then prodAt fs a else 0) (fun _ => 0)

end Verif
