import Verif.Model.Surface
import Verif.Model.Measure
/-!
# Model of `final_measurement` of the surface code demo (demo/QEC/surface_code.py:22-25, :77-82, :119-123, :156-171)

Qubits are numbered by `enc` as in Model/Surface.
-/

namespace Verif

namespace Oper

open Qec

/-- demo/QEC/surface_code.py:22-23: the network `Z`: `TensorNetwork([0, 0])` with the node `'PH'` of ones on edge 0. -/
noncomputable def phNet : TN (TVal ℂ) :=
  let tn := (forLoop (fun tn e => ((tn.addEdge (some e) none).1, (tn.addEdge (some e) none).2.map fun _ => ()))
    [Nm.int 0, Nm.int 0] ({} : TN (TVal ℂ))).1
  (TN.addNode { tn with openE := tn.openE ++ [.int 0, .int 0] } (some (.str "PH")) (.str "PH") (some [.int 0])
    (.ten (some ⟨[2], fun _ => 1⟩)) false).1

/-- demo/QEC/surface_code.py:24: `PlaceHolder`. -/
noncomputable def placeHolder : Oper ℂ := .imm (.ofTN phNet) [[.i]]

/-- demo/QEC/surface_code.py:25: `TraceState`; the network is that of `Trace`. -/
noncomputable def traceState : Oper ℂ := .imm (.ofTN traceNet) [[.o]]

/-- demo/QEC/surface_code.py:59-61, :69-70, :73-75, :78-82: the operations appended by `x_stab_meas` and `z_stab_meas` with `use_ndcompmeas=True`. -/
noncomputable def stabOpsNd (hs : List Int) (pairs : List (Int × Int)) (anc : List Int) : List (Oper ℂ × List Int) :=
  hs.map (fun q => (hGateOp, [q])) ++ pairs.map (fun e => (czOp, [e.1, e.2])) ++ hs.map (fun q => (hGateOp, [q])) ++
    anc.flatMap fun q => [(placeHolder, [q]), (traceState, [q])]

/-- demo/QEC/surface_code.py:56-82: the operations of `x_stab_meas(circuit, use_ndcompmeas=True)`. -/
noncomputable def xOpsNd (enc : Int × Int → Int) (coords : List (Int × Int)) : List (Oper ℂ × List Int) :=
  stabOpsNd ((inGroups coords [.D1, .D2, .D3, .D4, .X1, .X2]).map enc)
    ((xDance.flatMap (slotPairs coords)).map fun e => (enc e.1, enc e.2)) ((inGroups coords [.X1, .X2]).map enc)

/-- demo/QEC/surface_code.py:96-123: the operations of `z_stab_meas(circuit, use_ndcompmeas=True)`. -/
noncomputable def zOpsNd (enc : Int × Int → Int) (coords : List (Int × Int)) : List (Oper ℂ × List Int) :=
  stabOpsNd ((inGroups coords [.Z1, .Z2]).map enc)
    ((zDance.flatMap (slotPairs coords)).map fun e => (enc e.1, enc e.2)) ((inGroups coords [.Z1, .Z2]).map enc)

/-- demo/QEC/surface_code.py:157: the ancillas that are set to zero. -/
def finalAnc : List (Int × Int) := [(1, 1), (1, -1), (3, 3), (3, 1), (-1, 3), (5, 1), (1, 3), (3, 5)]

/-- demo/QEC/surface_code.py:158-159: the operations of the loop. -/
noncomputable def clearOps (anc : List Int) : List (Oper ℂ × List Int) := anc.flatMap fun q => [(traceOp, [q]), (zeroState, [q])]

/-- demo/QEC/surface_code.py:161-164, :167-170: the operations of a loop over pairs, with the gate `g`. -/
noncomputable def correctOps (g : Oper ℂ) (pairs : List (Int × Int)) : List (Oper ℂ × List Int) :=
  pairs.flatMap fun e => [(g, [e.1, e.2]), (traceOp, [e.1]), (traceState, [e.1])]

/-- demo/QEC/surface_code.py:157-170: the operations appended by `final_measurement`, in order. -/
noncomputable def finalOps (enc : Int × Int → Int) : List (Oper ℂ × List Int) :=
  clearOps (finalAnc.map enc) ++ xOpsNd enc demoCoords ++ correctOps czOp (finalCz.map fun e => (enc e.1, enc e.2)) ++
    zOpsNd enc demoCoords ++ correctOps cnotOp (finalCnot.map fun e => (enc e.1, enc e.2))

/-- demo/QEC/surface_code.py:156-171: `final_measurement(circuit)`. -/
noncomputable def finalMeasurement (sh : Circ.ShapeFn (Oper ℂ)) (enc : Int × Int → Int) (c : Circ (Oper ℂ)) : Except Err (Circ (Oper ℂ)) :=
  (finalOps enc).foldlM (fun c x => Circ.append sh c x.1 x.2) c

end Oper

end Verif
