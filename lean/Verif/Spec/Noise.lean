import Verif.Spec.Evolve
/-!
# Specification of a noisy circuit
-/

namespace Verif

variable {R : Type} [CommSemiring R]

/-- After every operation the channel with the entries `noise` acts on each of its outputs. -/
def noisySeq (noise : List Nat → R) (l : List (Act R)) : List (Act R) :=
  l.flatMap fun p => p :: p.outs.map fun q => ⟨noise, [q], [q]⟩

end Verif
