import Verif.Model.TN
import Mathlib.Algebra.Order.Field.Basic
import Mathlib.Data.List.Sort
import Mathlib.Data.List.Dedup
/-!
# Model of `add_idle_noise` of the surface code demo

demo/QEC/noise_model.py:63-101. Times are numbers of an ordered field instead of floats.
-/

namespace Verif

namespace Qec

variable {K : Type} [Field K] [LinearOrder K]

/-- What `add_idle_noise` reads of an operation in `operations_by_time` (demo/QEC/noise_model.py:67-71, :74, :86, :90): its time step, its
qubits, whether it is named `ND`, is a `State`, is a `Measurement`, is named `NoisyH`. -/
structure Event (K : Type) where
  time : K
  qubits : List Int
  nd : Bool := false
  state : Bool := false
  meas : Bool := false
  noisyH : Bool := false

/-- demo/QEC/noise_model.py:78-82: the dictionary `ts`. -/
structure Window (K : Type) where
  start : K
  stop : K
  Dt : K
  deriving DecidableEq

/-- demo/QEC/noise_model.py:83-85: an idle gate that is appended: qubit, duration, time step and `ts`. -/
structure IdleOp (K : Type) where
  qubit : Int
  dur : K
  time : K
  ts : Option (Window K)
  deriving DecidableEq

/-- demo/QEC/noise_model.py:64-66: the entries of `timing`, `time_last_meas`, `time_start` at one qubit. -/
structure Wire (K : Type) where
  timing : Option K
  lastMeas : Option K := none
  started : Option K := none

/-- demo/QEC/noise_model.py:74-85: the idle gate appended before an operation at `t`. `time_last_meas[q]` may be `None`, then the subtraction is a
`TypeError`. -/
def idleBefore (t : K) (e : Event K) (q : Int) (w : Wire K) : Except Err (Option (IdleOp K)) :=
  match w.timing with
  | none => .ok none
  | some t0 =>
    if !e.state && decide (t - t0 > 0) then
      match w.started with
      | none => .ok (some ⟨q, t - t0, (t0 + t) / 2, none⟩)
      | some ts =>
        match w.lastMeas with
        | none => .error .type
        | some lm => .ok (some ⟨q, t - t0, (t0 + t) / 2, some ⟨t0 - ts, t - ts, ts - lm⟩⟩)
    else .ok none

/-- demo/QEC/noise_model.py:71-95: the body of the loop for one operation and one of its qubits. -/
def wireStep (e : Event K) (q : Int) (w : Wire K) : Except Err (Wire K × Option (IdleOp K)) :=
  let w := if e.nd then { w with lastMeas := some e.time } else w
  match idleBefore e.time e q w with
  | .error x => .error x
  | .ok o =>
    let w := { w with timing := if e.meas then none else some e.time }
    if e.noisyH && w.lastMeas.isSome then
      match w.started with
      | none => .ok ({ w with started := some e.time }, o)
      | some _ => .ok ({ w with started := none, lastMeas := none }, o)
    else .ok (w, o)

/-- demo/QEC/noise_model.py:67-95: the loops over the operations and their qubits: the appended gates in order and the dictionaries at the end.
`operations_by_time` is computed once (circuit.py:899-910), so the appended gates are not visited. -/
def idleLoop : List (Event K × Int) → (Int → Wire K) → Except Err (List (IdleOp K) × (Int → Wire K))
  | [], s => .ok ([], s)
  | (e, q) :: l, s =>
    match wireStep e q (s q) with
    | .error x => .error x
    | .ok (w, o) =>
      match idleLoop l (Function.update s q w) with
      | .error x => .error x
      | .ok (out, s') => .ok (o.toList ++ out, s')

/-- demo/QEC/noise_model.py:96-101: the gates up to `end`. -/
def idleEnd (stop : Option K) (qs : List Int) (s : Int → Wire K) : List (IdleOp K) :=
  match stop with
  | none => []
  | some t => qs.filterMap fun q =>
    match (s q).timing with
    | none => none
    | some t0 => if t0 < t then some ⟨q, t - t0, (t0 + t) / 2, none⟩ else none

/-- demo/QEC/noise_model.py:63-101: the gates that `add_idle_noise(circuit, start, end)` appends, for the operations of the circuit in the order of
`operations_by_time`. -/
def addIdleNoise (events : List (Event K)) (start stop : Option K) : Except Err (List (IdleOp K)) :=
  match idleLoop (events.flatMap fun e => e.qubits.map fun q => (e, q)) fun _ => { timing := start } with
  | .error x => .error x
  | .ok (out, s) => .ok (out ++ idleEnd stop ((events.flatMap fun e => e.qubits).dedup.insertionSort (· ≤ ·)) s)

end Qec

end Verif
