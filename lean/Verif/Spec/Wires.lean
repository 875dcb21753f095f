import Verif.Model.Circuit
/-!
# Specification: when the operations on a qubit can be connected

Only the data types of the circuit model are used.
-/

namespace Verif

/-- The two kinds of ends of an operation on a wire. -/
inductive Port where
  | inp | out
  deriving DecidableEq, Repr

/-- The ends a letter stands for (a controlling qubit passes through). -/
def Letter.ports : Letter → List Port
  | .i | .b => [.inp]
  | .o | .d => [.out]
  | .c => [.inp, .out]

/-- The ends, in order, of operation `r` of shape `s` on qubit `q`. -/
def portsAt (s : List (List Letter)) (qs : List Int) (q : Int) : List Port :=
  ((qs.zip s).filter fun p => p.1 = q).flatMap fun p => p.2.flatMap Letter.ports

/-- The ends can be connected: behind an output comes an input, behind an input an output. -/
def Connectable (w : List Port) : Prop := w.IsChain (· ≠ ·)

/-- The operations using qubit `q`, in the order in which they happen; no two at the same time. -/
def Timeline {α : Type} (c : Circ α) (q : Int) (l : Circ α) : Prop :=
  l.Perm (c.filter fun p => q ∈ p.2.qubits) ∧ l.Pairwise fun p p' => p.2.time < p'.2.time

/-- The shape of an operation, empty if there is none. -/
def shapeD {α : Type} (sh : Circ.ShapeFn α) (a : α) : List (List Letter) :=
  match sh a with
  | .ok s => s
  | .error _ => []

/-- All ends met along a list of operations on qubit `q`. -/
def wireWord {α : Type} (sh : Circ.ShapeFn α) (q : Int) (l : Circ α) : List Port :=
  l.flatMap fun p => portsAt (shapeD sh p.2.op) p.2.qubits q

/-- Every operation has a shape that fits its qubits (what `append` checks). -/
def Fitting {α : Type} (sh : Circ.ShapeFn α) (c : Circ α) : Prop :=
  ∀ p ∈ c, ∃ s, sh p.2.op = .ok s ∧ s.length = p.2.qubits.length ∧ p.2.qubits.Nodup

end Verif
