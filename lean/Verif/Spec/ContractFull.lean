import Verif.Model.ContractFull
import Verif.Spec.Expand
import Verif.Spec.Contract
import Verif.Lemmas.Contract
/-!
# Specification: tensor-valued objects that can be contracted
-/

namespace Verif

variable {R : Type} [CommSemiring R] [Star R] {L : Type} [AddCommMonoid L]

/-- The libraries do what they promise. -/
structure Backend.Sound (B : Backend L R) : Prop where
  glue : B.glue.Sound
  srt : ∀ l, (B.srt l).Perm l
  engine : B.engine.Sound B.ex

/-- The order finder returns a valid scheme for the completed network, within the memory limit. -/
def Backend.Works (B : Backend L R) (tn : TN (TVal R)) : Prop :=
  ∀ tn', tn.completeDelta = (tn', .ok ()) →
    ∃ p, B.finder tn' = some p ∧ SchemeOK tn' p.order B.memory p.width ∧ SliceOK tn' p.slices

namespace TVal

/-- `t` is no network and is held by a node of the network, or of a network at a node, and so on. -/
inductive Leaf : TN (TVal R) → TVal R → Prop
  | here {tn : TN (TVal R)} {n r t} : tn.nodes.get? n = some r → r.ten = some t → ¬ t.IsNet → Leaf tn t
  | deep {tn s : TN (TVal R)} {n r t} : tn.nodes.get? n = some r → r.ten = some (ofTN s) → Leaf s t → Leaf tn t

/-- The names and fixed edges of a flattened network: no clash with what `complete_delta` introduces, closed fixed
edges fixed to one value. -/
structure Clean (tn : TN (TVal R)) : Prop where
  fresh : DeltaFresh tn
  nodeFresh : DeltaNodeFresh tn
  noStar : .str "*" ∉ tn.nodes.keys
  fix : ClosedFixOK tn

/-- Objects nested at most `k` deep whose arrays are all there, whose sums have terms of one shape and whose networks can
be flattened and completed. -/
def Contractable (B0 : Backend L R) : Nat → Backend L R → TVal R → Prop
  | _, _, .ten a => a.isSome
  | 0, _, _ => False
  | k + 1, B, .view t => Contractable B0 k B t
  | k + 1, B, .sum ts => ts ≠ [] ∧ (∀ p ∈ ts, Contractable B0 k B p.2) ∧
      ∃ sh : List Nat, ∀ p ∈ ts, p.2.shape = some (sh.map some)
  | k + 1, B, .net ns es adj op c =>
      Expandable (k + 1) ⟨ns, es, adj, op, c⟩ ∧ Tight (.net ns es adj op c) ∧ Fit (.net ns es adj op c) ∧
      (∀ t, Leaf ⟨ns, es, adj, op, c⟩ t → Contractable B0 k B0 t) ∧
      ∀ tn', expand B.glue (k + 1) ⟨ns, es, adj, op, c⟩ = (tn', .ok ()) → Clean tn' ∧ B.Works tn'

/-- The names of a flattened network do not clash with what `complete_delta` introduces. -/
structure ClearNames (tn : TN (TVal R)) : Prop where
  fresh : DeltaFresh tn
  nodeFresh : DeltaNodeFresh tn
  noStar : .str "*" ∉ tn.nodes.keys

/-- As `Contractable`, with loose edges allowed: edges that are on no leg are fixed (or open, at the outermost level), no
edge is fixed to two values. -/
def Evaluable (B0 : Backend L R) : Nat → Backend L R → TVal R → Prop
  | _, _, .ten a => a.isSome
  | 0, _, _ => False
  | k + 1, B, .view t => Evaluable B0 k B t
  | k + 1, B, .sum ts => ts ≠ [] ∧ (∀ p ∈ ts, Evaluable B0 k B p.2) ∧
      ∃ sh : List Nat, ∀ p ∈ ts, p.2.shape = some (sh.map some)
  | k + 1, B, .net ns es adj op c =>
      Expandable (k + 1) ⟨ns, es, adj, op, c⟩ ∧ Firm (.net ns es adj op c) ∧ Moored True ⟨ns, es, adj, op, c⟩ ∧
      Fit (.net ns es adj op c) ∧ (∀ t, Leaf ⟨ns, es, adj, op, c⟩ t → Evaluable B0 k B0 t) ∧
      ∀ tn', expand B.glue (k + 1) ⟨ns, es, adj, op, c⟩ = (tn', .ok ()) → ClearNames tn' ∧ B.Works tn'

end TVal

end Verif
