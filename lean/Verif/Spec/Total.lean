import Verif.Spec.Value
/-!
# Specification: the sum over all edges

`TN.value` does not sum over edges that are on no leg and not open (nor does the code).  `TN.total` sums over every
edge of the network: a loose edge contributes the number of its values, and nothing is left of a network with an edge
that has no value.  The two agree if every loose edge has exactly one value.
-/

namespace Verif

/-- The sum over the values of all edges, given the entries of the tensors at the nodes. -/
def TN.total {τ : Type} {R : Type} [CommSemiring R] (val : τ → List Nat → R) (tn : TN τ) (idx : List Nat) : R :=
  sumOver tn.dom tn.edges.keys (fun a => if tn.openE.map a = idx then prodAt (tn.factors val) a else 0) fun _ => 0

namespace TVal

variable {R : Type} [CommSemiring R] [Star R]

mutual
/-- The entries of the tensor, all edges of all networks summed. -/
def tot : TVal R → List Nat → R
  | .ten none => fun _ => 0
  | .ten (some a) => a.get
  | .net ns es adj op c => fun idx =>
    sumOver (TN.dom (⟨ns, es, adj, op, c⟩ : TN (TVal R))) (Dict.keys es)
      (fun a => if op.map a = idx then prodAt (totFactors ns) a else 0) fun _ => 0
  | .sum ts => fun idx => totSum ts idx
  | .view t => fun idx => star (t.tot idx)

/-- The factors of a network. -/
def totFactors : List (Nm × NodeRec (TVal R)) → List (Factor Nm R)
  | [] => []
  | (_, ⟨legs, t, _⟩) :: ns => ⟨legs, totOpt t⟩ :: totFactors ns

/-- The entries of the tensor at a node. -/
def totOpt : Option (TVal R) → List Nat → R
  | none => fun _ => 0
  | some t => t.tot

/-- Entrywise sum. -/
def totSum : List (Nm × TVal R) → List Nat → R
  | [], _ => 0
  | (_, t) :: ts, idx => t.tot idx + totSum ts idx
end

theorem totFactors_eq (ns : List (Nm × NodeRec (TVal R))) : totFactors ns = ns.map fun p => p.2.factor tot := by
  induction ns with
  | nil => rw [totFactors]; rfl
  | cons p ns ih =>
    obtain ⟨n, ⟨legs, t, f⟩⟩ := p
    rw [totFactors, ih]
    cases t <;> simp [NodeRec.factor, totOpt]

theorem tot_ofTN (tn : TN (TVal R)) : (ofTN tn).tot = tn.total tot := by
  funext idx
  unfold ofTN
  rw [tot, totFactors_eq]; rfl

end TVal

end Verif
