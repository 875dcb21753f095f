import Verif.Model.Gates
import Verif.Model.Operation
/-!
# Model of the example `GHZState` (examples/GHZ.py) and of the constants it uses (acqdp/circuit/circuit.py)
-/

namespace Verif

namespace Oper

/-- circuit.py:672, :678: `ZeroMeas`, a member of `CompMeas`. -/
def zeroMeasRec : PureRec ℂ where
  data := .ten (some ⟨[2], fun idx => if idx = [0] then 1 else 0⟩)
  shape := [[.i]]
  mark := some (false, 0)

/-- circuit.py:654, :660, :697: `ZeroState`, a member of `CompState`, with adjoint `ZeroMeas`. -/
def zeroStateRec : PureRec ℂ where
  data := .ten (some ⟨[2], fun idx => if idx = [0] then 1 else 0⟩)
  shape := [[.o]]
  mark := some (true, 0)

/-- circuit.py:654, :697: `ZeroState`. -/
def zeroState : Oper ℂ := .pure zeroStateRec (some zeroMeasRec)

/-- circuit.py:606: `HGate`. -/
noncomputable def hGateOp : Oper ℂ := .pure
  { data := .ten (some ⟨[2, 2], fun idx => Gate.hGate (Fin.ofNat 2 (idx.getD 0 0)) (Fin.ofNat 2 (idx.getD 1 0))⟩)
    shape := [[.i, .o]]
    selfAdj := true } none

/-- circuit.py:649-651: `CNOTGate`. -/
noncomputable def cnotOp : Oper ℂ := .ctrl
  (.ten (some ⟨[2, 2, 2], fun idx => Gate.cnotTensor (Fin.ofNat 2 (idx.getD 0 0)) (Fin.ofNat 2 (idx.getD 1 0)) (Fin.ofNat 2 (idx.getD 2 0))⟩))
  [[.c], [.i, .o]] true none

/-- examples/GHZ.py:7-9: the loop. -/
noncomputable def ghzLoop (sh : Circ.ShapeFn (Oper ℂ)) : List Nat → Circ (Oper ℂ) → Except Err (Circ (Oper ℂ))
  | [], a => .ok a
  | i :: l, a =>
    match a.append sh zeroState [(i : Int) + 1] with
    | .error e => .error e
    | .ok a =>
      match a.append sh cnotOp [0, (i : Int) + 1] with
      | .error e => .error e
      | .ok a => ghzLoop sh l a

/-- examples/GHZ.py:5-10: `GHZState(n)`. -/
noncomputable def ghzState (sh : Circ.ShapeFn (Oper ℂ)) (n : Nat) : Except Err (Circ (Oper ℂ)) :=
  match Circ.append sh [] zeroState [0] with
  | .error e => .error e
  | .ok a =>
    match a.append sh hGateOp [0] with
    | .error e => .error e
    | .ok a => ghzLoop sh (List.range (n - 1)) a

end Oper

end Verif
