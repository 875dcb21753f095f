import Verif.Model.Surface
import Verif.Model.Measure
import Mathlib.Analysis.SpecialFunctions.Trigonometric.Basic
import Mathlib.Analysis.SpecialFunctions.Pow.Complex
/-!
# Model of the circuit loader `GRCS` (examples/circuit_simulation.py)

Files are lists of lines, lines are lists of words. Simplification: a word comes with the results of `int` and `float` on it, numbers in
floating point are exact real numbers.
-/

namespace Verif

namespace Oper

/-- examples/circuit_simulation.py:64-68, :75, :84-93: a word of a line: `word.lower()`, `int(word)` and `float(word)` (`none`: `ValueError`). -/
structure Word where
  lower : String
  int? : Option Int
  num? : Option ℝ

/-- The entries of a matrix written as a list of rows (`np.array([[…], …])`, circuit_simulation.py:29-41, :80-94). -/
noncomputable def rowsAt (rows : List (List ℂ)) (i j : Nat) : ℂ := (rows.getD i []).getD j 0

/-- circuit.py:499-504, :423: `Unitary(1, np.array(rows))`. -/
noncomputable def unitaryOne (rows : List (List ℂ)) : Oper ℂ := .pure
  { data := .ten (some ⟨[2, 2], fun idx => rowsAt rows (idx.getD 0 0) (idx.getD 1 0)⟩)
    shape := [[.i, .o]] } none

/-- circuit.py:499-504, :423: `Unitary(2, np.array(rows))`; the matrix is reshaped, outputs before inputs. -/
noncomputable def unitaryTwo (rows : List (List ℂ)) : Oper ℂ := .pure
  { data := .ten (some ⟨[2, 2, 2, 2], fun idx => rowsAt rows (2 * idx.getD 0 0 + idx.getD 1 0) (2 * idx.getD 2 0 + idx.getD 3 0)⟩)
    shape := [[.i, .o], [.i, .o]] } none

/-- circuit.py:589-594, :550: `Diagonal(1, np.array(d))`. -/
noncomputable def diagOne (d : List ℂ) : Oper ℂ := .ctrl (.ten (some ⟨[2], fun idx => d.getD (idx.getD 0 0) 0⟩)) [[.c]] false none

/-- circuit.py:589-594, :550: `Diagonal(2, np.array(d))`; the four entries are reshaped. -/
noncomputable def diagTwo (d : List ℂ) : Oper ℂ :=
  .ctrl (.ten (some ⟨[2, 2], fun idx => d.getD (2 * idx.getD 0 0 + idx.getD 1 0) 0⟩)) [[.c], [.c]] false none

/-- tensor_network.py:28-42: `TensorNetwork(open_edges=es, bond_dim=dim)`. -/
def openNet (es : List Nm) (dim : Option Nat) : TN (TVal ℂ) :=
  let tn := (forLoop (fun tn e => ((tn.addEdge (some e) dim).1, (tn.addEdge (some e) dim).2.map fun _ => ())) es ({} : TN (TVal ℂ))).1
  { tn with openE := tn.openE ++ es }

/-- circuit.py:631-633: `SWAPGate`. -/
def swapOp : Oper ℂ := .pure
  { data := .ofTN (openNet [.int 0, .int 1, .int 1, .int 0] (some 2))
    shape := [[.i, .o], [.i, .o]]
    selfAdj := true } none

/-- circuit_simulation.py:27-31: the gate of `x_1_2`. -/
noncomputable def xHalfRows : List (List ℂ) :=
  [[1 / Real.sqrt 2, -Complex.I / Real.sqrt 2], [-Complex.I / Real.sqrt 2, 1 / Real.sqrt 2]]

/-- circuit_simulation.py:32-36: the gate of `y_1_2`. -/
noncomputable def yHalfRows : List (List ℂ) := [[1 / Real.sqrt 2, -1 / Real.sqrt 2], [1 / Real.sqrt 2, 1 / Real.sqrt 2]]

/-- circuit_simulation.py:37-42: the gate of `hz_1_2`; `np.sqrt` is the principal square root. -/
noncomputable def wHalfRows : List (List ℂ) :=
  [[1 / Real.sqrt 2, -(Complex.I ^ (1 / 2 : ℂ)) / Real.sqrt 2], [(-Complex.I) ^ (1 / 2 : ℂ) / Real.sqrt 2, 1 / Real.sqrt 2]]

/-- circuit_simulation.py:45-46: the gate of `t`. -/
noncomputable def tDiag : List ℂ := [1, Complex.exp (Complex.I * Real.pi / 4)]

/-- circuit_simulation.py:47-48: the gate of `is`. -/
noncomputable def isOper (sh : Circ.ShapeFn (Oper ℂ)) : Except Err (Oper ℂ) :=
  (orOper sh (diagTwo [1, Complex.I, Complex.I, 1]) swapOp).map .circ

/-- circuit_simulation.py:71-76: the gate of a line with one parameter. -/
noncomputable def rzOp (θ : ℝ) : Oper ℂ := diagOne [1, Complex.exp (Complex.I * θ)]

/-- circuit_simulation.py:77-95: the gate of a line with two parameters. -/
noncomputable def fsimRows (θ φ : ℝ) : List (List ℂ) :=
  [[1, 0, 0, 0],
   [0, Real.cos θ, -Real.sin θ * Complex.I, 0],
   [0, -Real.sin θ * Complex.I, Real.cos θ, 0],
   [0, 0, 0, Real.cos (-φ) + Real.sin (-φ) * Complex.I]]

/-- circuit_simulation.py:24-49: `gate_table`; `is` is the value of the entry with this name. -/
noncomputable def gateTable (is : Oper ℂ) : String → Option (Oper ℂ)
  | "h" => some hGateOp
  | "x_1_2" => some (unitaryOne xHalfRows)
  | "y_1_2" => some (unitaryOne yHalfRows)
  | "hz_1_2" => some (unitaryOne wHalfRows)
  | "cz" => some czOp
  | "t" => some (diagOne tDiag)
  | "is" => some is
  | _ => none

/-- circuit_simulation.py:51-61: `size_table`. -/
def sizeTable : String → Option Nat
  | "h" => some 1
  | "cz" => some 2
  | "t" => some 1
  | "x_1_2" => some 1
  | "y_1_2" => some 1
  | "hz_1_2" => some 1
  | "is" => some 2
  | "rz" => some 1
  | "fs" => some 2
  | _ => none

/-- circuit_simulation.py:69-95: the operation of a line, given the words behind its targets; `none`: nothing is appended. -/
noncomputable def paramOp (is : Oper ℂ) (gate : String) : List Word → Except Err (Option (Oper ℂ))
  | [] =>
    match gateTable is gate with
    | none => .error .key
    | some op => .ok (some op)
  | [p] =>
    match p.num? with
    | none => .error .value
    | some θ => .ok (some (rzOp θ))
  | [p, p'] =>
    match p.num?, p'.num? with
    | some θ, some φ => .ok (some (unitaryTwo (fsimRows θ φ)))
    | _, _ => .error .value
  | _ => .ok none

/-- circuit_simulation.py:64-95: the operation, the qubits and the time step of a line. -/
noncomputable def lineOp (is : Oper ℂ) : List Word → Except Err (Option (Oper ℂ × List Int × Int))
  | [] => .error .index
  | w0 :: ws =>
    match w0.int? with
    | none => .error .value
    | some layer =>
      match ws with
      | [] => .error .index
      | w1 :: rest =>
        match sizeTable w1.lower with
        | none => .error .key
        | some size =>
          match (rest.take size).mapM Word.int? with
          | none => .error .value
          | some target =>
            match paramOp is w1.lower (rest.drop size) with
            | .error e => .error e
            | .ok none => .ok none
            | .ok (some op) => .ok (some (op, target, layer))

/-- circuit_simulation.py:63-95: the loop over the lines. -/
noncomputable def grcsLines (sh : Circ.ShapeFn (Oper ℂ)) (is : Oper ℂ) : List (List Word) → Circ (Oper ℂ) → Except Err (Circ (Oper ℂ))
  | [], c => .ok c
  | l :: ls, c =>
    match lineOp is l with
    | .error e => .error e
    | .ok none => grcsLines sh is ls c
    | .ok (some (op, target, layer)) =>
      match c.append sh op target (some layer) with
      | .error e => .error e
      | .ok c => grcsLines sh is ls c

/-- circuit_simulation.py:20-23: the states of the qubits. Simplification: `in_state` is a natural number. -/
noncomputable def grcsStates (sh : Circ.ShapeFn (Oper ℂ)) (n s : Nat) : List Nat → Circ (Oper ℂ) → Except Err (Circ (Oper ℂ))
  | [], c => .ok c
  | q :: qs, c =>
    match c.append sh (compState ((s >>> (n - q - 1)) &&& 1)) [(q : Int)] (some (-1)) with
    | .error e => .error e
    | .ok c => grcsStates sh n s qs c

/-- circuit_simulation.py:16-95, :102: `GRCS(f, in_state)` without `simplify`; `head` is the first line. -/
noncomputable def grcs (sh : Circ.ShapeFn (Oper ℂ)) (head : Word) (inState : Option Nat) (lines : List (List Word)) : Except Err (Circ (Oper ℂ)) :=
  match head.int? with
  | none => .error .value
  | some n =>
    match (match inState with
      | none => Except.ok []
      | some s => grcsStates sh n.toNat s (List.range n.toNat) []) with
    | .error e => .error e
    | .ok c =>
      match isOper sh with
      | .error e => .error e
      | .ok is => grcsLines sh is lines c

/-- circuit_simulation.py:11-13: `ISWAP_CZ`. -/
noncomputable def iswapCz : Oper ℂ := .pure
  { data := .ofTN ((openNet [.int 0, .int 1, .int 1, .int 0] none).addNode (some (.int 0)) (.int 0) (some [.int 0, .int 1])
      (.ten (some ⟨[2, 2], fun idx => rowsAt [[1, Complex.I], [Complex.I, Complex.exp (Real.pi * Complex.I / 6)]] (idx.getD 0 0) (idx.getD 1 0)⟩)) false).1
    shape := [[.i, .o], [.i, .o]]
    selfAdj := true } none

/-- circuit_simulation.py:96-101: the loop of `simplify`. -/
noncomputable def simplifyOps (c : Circ (Oper ℂ)) : Circ (Oper ℂ) :=
  c.map fun p => (p.1, if p.2.time = 2 ∨ p.2.time = c.maxTime - 2 then ⟨iswapCz, p.2.time, p.2.qubits⟩ else p.2)

end Oper

end Verif
