import Verif.Model.Ghz
import Mathlib.Data.ZMod.Defs
/-!
# Model of the stabilizer measurements of the surface code demo

demo/QEC/surface_code.py:27-134 and the pairing of demo/QEC/noise_model.py:111-121. Qubits are named by coordinates in the demo;
the model of circuits has integers as names, so the functions here take an (injective) numbering `enc` of the coordinates.
-/

namespace Verif

namespace Qec

/-- demo/QEC/surface_code.py:27-37: the names of the groups. -/
inductive Grp
  | D1 | D2 | D3 | D4 | X1 | Z1 | Z2 | X2 | dummy
  deriving DecidableEq

/-- demo/QEC/surface_code.py:27-37: the dictionary `qubit_group_name` at `(x % 4, y % 4)`; `none`: a `KeyError`. -/
def groupName (q : Int × Int) : Option Grp :=
  match q.1 % 4, q.2 % 4 with
  | 0, 0 => some .D1
  | 0, 2 => some .D2
  | 2, 0 => some .D3
  | 2, 2 => some .D4
  | 1, 1 => some .X1
  | 1, 3 => some .Z1
  | 3, 1 => some .Z2
  | 3, 3 => some .X2
  | -1, -1 => some .dummy
  | _, _ => none

/-- demo/QEC/surface_code.py:38, :44-45: `qubit_groups[g]`. Simplification: the `KeyError` for other coordinates is left out, they are in
no group. -/
def group (coords : List (Int × Int)) (g : Grp) : List (Int × Int) := coords.filter fun q => groupName q = some g

/-- demo/QEC/surface_code.py:39-42: `qubit_coords`. -/
def demoCoords : List (Int × Int) :=
  ((List.range 3).flatMap fun x => (List.range 3).map fun y => ((x : Int) * 2, (y : Int) * 2)) ++ [(-1, 3)] ++
    [(1, -1), (1, 1), (1, 3), (3, 1), (3, 3), (3, 5)] ++ [(5, 1)]

/-- demo/QEC/surface_code.py:51: the test in `add_CZ_gates`; also noise_model.py:120. -/
def adjacent (q1 q2 : Int × Int) : Bool := (q1.1 - q2.1).natAbs = 1 && (q1.2 - q2.2).natAbs = 1

/-- demo/QEC/surface_code.py:48-53: the pairs to which `add_CZ_gates` appends CZ gates, in order; the `break` leaves the
inner loop at the first one. -/
def czGates (high low : List (Int × Int)) : List ((Int × Int) × (Int × Int)) :=
  high.flatMap fun q1 =>
    match low.find? (adjacent q1) with
    | some q2 => [(q1, q2)]
    | none => []

/-- demo/QEC/noise_model.py:111-121: the pairs to which `add_CZ_rotations` appends gates, without `break`. -/
def czRotations (high low : List (Int × Int)) : List ((Int × Int) × (Int × Int)) :=
  high.flatMap fun q1 => (low.filter (adjacent q1)).map fun q2 => (q1, q2)

/-- demo/QEC/surface_code.py:64-69: the pairs of groups `flux_dance[0:2]`, `flux_dance[2:4]` of the time slots 1 to 4. -/
def xDance : List ((Grp × Grp) × (Grp × Grp)) :=
  [((.D2, .X1), (.X2, .D3)), ((.D1, .X1), (.X2, .D4)), ((.D1, .X2), (.X1, .D4)), ((.D2, .X2), (.X1, .D3))]

/-- demo/QEC/surface_code.py:108-112: the same for the time slots 5 to 8. -/
def zDance : List ((Grp × Grp) × (Grp × Grp)) :=
  [((.D1, .Z1), (.Z2, .D4)), ((.D2, .Z2), (.Z1, .D3)), ((.D2, .Z1), (.Z2, .D3)), ((.D1, .Z2), (.Z1, .D4))]

/-- demo/QEC/surface_code.py:69-70, :112-113: the pairs of one time slot. -/
def slotPairs (coords : List (Int × Int)) (s : (Grp × Grp) × (Grp × Grp)) : List ((Int × Int) × (Int × Int)) :=
  czGates (group coords s.1.1) (group coords s.1.2) ++ czGates (group coords s.2.1) (group coords s.2.2)

/-- demo/QEC/surface_code.py:59-60, :73-74: the qubits of the groups in a list of groups, in order. -/
def inGroups (coords : List (Int × Int)) (l : List Grp) : List (Int × Int) := l.flatMap (group coords)

/-- demo/QEC/surface_code.py:161: the ancillas and data qubits of the CZ gates that correct the X syndrome. -/
def finalCz : List ((Int × Int) × (Int × Int)) := [((1, 1), (0, 0)), ((3, 3), (4, 4)), ((-1, 3), (0, 4)), ((5, 1), (4, 0))]

/-- demo/QEC/surface_code.py:167: the ancillas and data qubits of the CNOT gates that correct the Z syndrome. -/
def finalCnot : List ((Int × Int) × (Int × Int)) := [((1, -1), (0, 0)), ((3, 1), (4, 0)), ((1, 3), (0, 4)), ((3, 5), (4, 4))]

/-- demo/QEC/surface_code.py:161-162, one branch: the gate CZ on an ancilla with value `j` is Z to the power `j` on the data qubit. The ancilla is
traced out (:163) after it was set to the sum of both values (:81-82), so the tensor network has the sum over all `j`. -/
noncomputable def zCorrect (enc : Int × Int → Int) (C : List ((Int × Int) × (Int × Int))) (j : Int × Int → ZMod 2) (Φ : (Int → ZMod 2) → ℂ) :
    (Int → ZMod 2) → ℂ := fun z => (if (C.map fun e => j e.1 * z (enc e.2)).sum = 0 then 1 else -1) * Φ z

/-- demo/QEC/surface_code.py:167-168, one branch: the gate CNOT on an ancilla with value `j` is X to the power `j` on the data qubit. -/
def xCorrect (enc : Int × Int → Int) (C : List ((Int × Int) × (Int × Int))) (j : Int × Int → ZMod 2) (Φ : (Int → ZMod 2) → ℂ) :
    (Int → ZMod 2) → ℂ := fun z => Φ fun q => z q + (C.map fun e => if enc e.2 = q then j e.1 else 0).sum

end Qec

namespace Oper

open Qec

/-- circuit.py:675, :698: `OneMeas`, with adjoint `OneState`; circuit.py:672, :697: `ZeroMeas`: the member `b` of `CompMeas`. -/
def bitMeas (b : Nat) : Oper ℂ := .pure
  { data := .ten (some ⟨[2], fun idx => if idx = [b] then 1 else 0⟩)
    shape := [[.i]]
    mark := some (false, b) }
  (some
    { data := .ten (some ⟨[2], fun idx => if idx = [b] then 1 else 0⟩)
      shape := [[.o]]
      mark := some (true, b) })

/-- circuit.py:636: `CZGate`. -/
def czOp : Oper ℂ := .ctrl
  (.ten (some ⟨[2, 2], fun idx => Gate.czDiag (Fin.ofNat 2 (idx.getD 0 0)) (Fin.ofNat 2 (idx.getD 1 0))⟩))
  [[.c], [.c]] true none

/-- demo/QEC/surface_code.py:59-61, :69-70, :73-75, :84-93: the operations appended by `x_stab_meas` and `z_stab_meas`, in order: Hadamard
gates on `hs`, CZ gates on the pairs, Hadamard gates on `hs`, for each ancilla a measurement and `ZeroState`. Simplification:
`use_ndcompmeas` is false; `out q` is the index of `measure_outcome[q]` in `CompMeas`. -/
noncomputable def stabOps (hs : List Int) (pairs : List (Int × Int)) (anc : List Int) (out : Int → Nat) : List (Oper ℂ × List Int) :=
  hs.map (fun q => (hGateOp, [q])) ++ pairs.map (fun e => (czOp, [e.1, e.2])) ++ hs.map (fun q => (hGateOp, [q])) ++
    anc.flatMap fun q => [(bitMeas (out q), [q]), (zeroState, [q])]

/-- demo/QEC/surface_code.py:56-93: `x_stab_meas(circuit, measure_outcome)`; without outcomes they are all 0 (:90-93). -/
noncomputable def xStabMeas (sh : Circ.ShapeFn (Oper ℂ)) (enc : Int × Int → Int) (coords : List (Int × Int)) (out : Int → Nat)
    (c : Circ (Oper ℂ)) : Except Err (Circ (Oper ℂ)) :=
  (stabOps ((inGroups coords [.D1, .D2, .D3, .D4, .X1, .X2]).map enc)
    ((xDance.flatMap (slotPairs coords)).map fun e => (enc e.1, enc e.2)) ((inGroups coords [.X1, .X2]).map enc) out).foldlM
    (fun c x => Circ.append sh c x.1 x.2) c

/-- demo/QEC/surface_code.py:96-134: `z_stab_meas(circuit, measure_outcome)`. -/
noncomputable def zStabMeas (sh : Circ.ShapeFn (Oper ℂ)) (enc : Int × Int → Int) (coords : List (Int × Int)) (out : Int → Nat)
    (c : Circ (Oper ℂ)) : Except Err (Circ (Oper ℂ)) :=
  (stabOps ((inGroups coords [.Z1, .Z2]).map enc)
    ((zDance.flatMap (slotPairs coords)).map fun e => (enc e.1, enc e.2)) ((inGroups coords [.Z1, .Z2]).map enc) out).foldlM
    (fun c x => Circ.append sh c x.1 x.2) c

/-- circuit.py:663, :681, :699: `PlusState`, with adjoint `PlusMeas`. -/
noncomputable def plusState : Oper ℂ := .pure
  { data := .ten (some ⟨[2], fun _ => (1 / Real.sqrt 2 : ℝ)⟩)
    shape := [[.o]] }
  (some
    { data := .ten (some ⟨[2], fun _ => (1 / Real.sqrt 2 : ℝ)⟩)
      shape := [[.i]] })

/-- demo/QEC/surface_code.py:144-145: the loop of `initial_state`. -/
noncomputable def zeroLoop (sh : Circ.ShapeFn (Oper ℂ)) (enc : Int × Int → Int) : List (Int × Int) → Circ (Oper ℂ) → Except Err (Circ (Oper ℂ))
  | [], c => .ok c
  | q :: l, c =>
    match c.append sh zeroState [enc q] with
    | .error e => .error e
    | .ok c => zeroLoop sh enc l c

/-- demo/QEC/surface_code.py:137-153: `initial_state(coord)`, on the qubits `coords`. -/
noncomputable def initialState (sh : Circ.ShapeFn (Oper ℂ)) (enc : Int × Int → Int) (coords : List (Int × Int)) (coord : Int × Int) :
    Except Err (Circ (Oper ℂ)) :=
  match zeroLoop sh enc coords [] with
  | .error e => .error e
  | .ok c =>
    match xStabMeas sh enc coords (fun _ => 0) c with
    | .error e => .error e
    | .ok c =>
      match c.append sh plusState [enc coord] with
      | .error e => .error e
      | .ok c =>
        match c.append sh cnotOp [enc coord, enc (0, 0)] with
        | .error e => .error e
        | .ok c =>
          match c.append sh cnotOp [enc coord, enc (2, 0)] with
          | .error e => .error e
          | .ok c => c.append sh cnotOp [enc coord, enc (4, 0)]

end Oper

end Verif
