import Verif.Model.Surface
import Verif.Model.Timeline
/-!
# Model of `add_noisy_surface_code` of the surface code demo

demo/QEC/noise_model.py:129-239. Times are numbers of an ordered field instead of floats. The angles of the gates (the random `quasi_static_flux`
of :155 and `gamma`) are left out: they do not decide which operation is appended where.
-/

namespace Verif

namespace Qec

variable {K : Type} [Field K] [LinearOrder K]

/-- The operations appended by `add_noisy_surface_code` (demo/QEC/noise_model.py:167, :177, :186, :198): `NoisyHGate`, `NoisyCZ` with the angle of the
qubit, `NoisyCZ` with the angle `gamma`, `NDCompMeas`. -/
inductive NoisyKind
  | hadamard | cz | cross | nd
  deriving DecidableEq

/-- demo/QEC/noise_model.py:121, :167, :198: one call of `circuit.append`. -/
structure NoisyOp (K : Type) where
  kind : NoisyKind
  qubits : List (Int × Int)
  time : K

/-- demo/QEC/noise_model.py:156-160: what is read of `params`; `T_C` may be missing. -/
structure RoundParams (K : Type) where
  T1 : K
  T2 : K
  TC : Option K := none
  tm : K
  td : K

/-- demo/QEC/noise_model.py:171-174, :220-223: the last entries of the flux dances. -/
def xLast : List Grp := [.D4, .D3, .D3, .D4]

/-- demo/QEC/noise_model.py:181-184, :210-213: the last entries of the flux dances. -/
def zLast : List Grp := [.D3, .D4, .D4, .D3]

/-- demo/QEC/noise_model.py:176-177, :185-186: the pairs of one flux dance, the group `dummy` included. -/
def rotPairs (coords : List (Int × Int)) (s : ((Grp × Grp) × (Grp × Grp)) × Grp) : List ((Int × Int) × (Int × Int)) :=
  czRotations (group coords s.1.1.1) (group coords s.1.1.2) ++ czRotations (group coords s.1.2.1) (group coords s.1.2.2) ++
    czRotations (group coords s.2) (group coords .dummy)

/-- demo/QEC/noise_model.py:164-168, :190-193, :196-198: one operation on every qubit of the groups. -/
def layerOps (k : NoisyKind) (qs : List (Int × Int)) (t : K) : List (NoisyOp K) := qs.map fun q => ⟨k, [q], t⟩

/-- demo/QEC/noise_model.py:171-178, :210-217: the loop over the flux dances: the operations and `time` at the end. -/
def slotOps (coords : List (Int × Int)) (T2 : K) : List (((Grp × Grp) × (Grp × Grp)) × Grp) → K → List (NoisyOp K) × K
  | [], t => ([], t)
  | s :: l, t =>
    let t := t + T2 / 2
    let r := slotOps coords T2 l (t + T2 / 2)
    ((rotPairs coords s).map (fun e => ⟨.cz, [e.1, e.2], t⟩) ++ r.1, r.2)

/-- demo/QEC/noise_model.py:181-186, :220-225: the cross talk, all at one time. -/
def crossOps (coords : List (Int × Int)) (l : List (((Grp × Grp) × (Grp × Grp)) × Grp)) (t : K) : List (NoisyOp K) :=
  l.flatMap fun s => (rotPairs coords s).map fun e => ⟨.cross, [e.1, e.2], t⟩

/-- demo/QEC/noise_model.py:163-239: the operations appended in one round beginning at `time`, and the returned `end_time`. -/
def noisyRound (coords : List (Int × Int)) (p : RoundParams K) (time : K) : List (NoisyOp K) × K :=
  let dx := inGroups coords [.D1, .D2, .D3, .D4, .X1, .X2]
  let z := inGroups coords [.Z1, .Z2]
  let time := time + p.T1 / 2
  let hA := layerOps .hadamard dx time
  let time := time + p.T1 / 2
  let s := slotOps coords p.T2 (xDance.zip xLast) time
  let time := s.2
  let x := crossOps coords (zDance.zip zLast) time
  let time := time + p.T1 / 2
  let hB := layerOps .hadamard dx time
  let time := time + p.T1 / 2
  let mC := layerOps .nd (inGroups coords [.X1, .X2]) (time + p.tm / 2)
  let stop := time + p.tm + p.td
  let time := time + p.TC.getD (-p.T1)
  let time := time + p.T1 / 2
  let hD := layerOps .hadamard z time
  let time := time + p.T1 / 2
  let s' := slotOps coords p.T2 (zDance.zip zLast) time
  let time := s'.2
  let x' := crossOps coords (xDance.zip xLast) time
  let time := time + p.T1 / 2
  let hE := layerOps .hadamard z time
  let time := time + p.T1 / 2
  let mF := layerOps .nd z (time + p.tm / 2)
  (hA ++ s.1 ++ x ++ hB ++ mC ++ hD ++ s'.1 ++ x' ++ hE ++ mF, stop)

/-- demo/QEC/noise_model.py:129-239: `add_noisy_surface_code(circuit, qubit_coords, time, params)` with `time` given. A coordinate off the lattice is a
`KeyError` (:146); with `params=None` the variable `gamma` is not set (:161), its use in :186 is an `UnboundLocalError`. -/
def addNoisyRound (coords : List (Int × Int)) (params : Option (RoundParams K)) (time : K) : Except Err (List (NoisyOp K) × K) :=
  if coords.all fun q => (groupName q).isSome then
    match params with
    | none => .error .runtime
    | some p => .ok (noisyRound coords p time)
  else .error .key

/-- demo/QEC/surface_code.py:177-178: `n` rounds, each beginning at the `end_time` of the one before: all operations, and the last `end_time`. -/
def noisyRounds (coords : List (Int × Int)) (params : Option (RoundParams K)) : Nat → K → Except Err (List (NoisyOp K) × K)
  | 0, t => .ok ([], t)
  | n + 1, t =>
    match addNoisyRound coords params t with
    | .error e => .error e
    | .ok (ops, t) =>
      match noisyRounds coords params n t with
      | .error e => .error e
      | .ok (ops', t) => .ok (ops ++ ops', t)

/-- What `add_idle_noise` sees of the operation: demo/QEC/noise_model.py:56 and :126 give the names; all operations are channels or unitaries, none is a
`State` or a `Measurement`. -/
def NoisyOp.event (enc : Int × Int → Int) (o : NoisyOp K) : Event K :=
  { time := o.time, qubits := o.qubits.map enc, nd := o.kind = .nd, noisyH := o.kind = .hadamard }

end Qec

end Verif
