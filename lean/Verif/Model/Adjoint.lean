import Verif.Model.Convert
/-!
# Model of `Circuit.adjoint` (acqdp/circuit/circuit.py)
-/

namespace Verif

namespace Circ

variable {α τ : Type}

/-- circuit.py:995-999: the loop; `T` is `self.max_time`, `adj` is `~operation`. -/
def adjointLoop (sh : ShapeFn α) (adj : α → Except Err α) (T : Int) : Circ α → Circ α → Except Err (Circ α)
  | acc, [] => .ok acc
  | acc, (_, r) :: c =>
    match adj r.op with
    | .error e => .error e
    | .ok op =>
      match acc.append sh op r.qubits (some (T - r.time)) with
      | .error e => .error e
      | .ok acc' => adjointLoop sh adj T acc' c

/-- circuit.py:991-1000: `Circuit.adjoint`. -/
def adjoint (I : OpsIface α τ) (adj : α → Except Err α) (c : Circ α) : Except Err (Circ α) :=
  match c.isPure I with
  | .error e => .error e
  | .ok false => .error .value
  | .ok true => adjointLoop I.shape adj c.maxTime [] c

end Circ

end Verif
