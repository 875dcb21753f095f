import Verif.Model.Density
/-!
# Model of the readout of the surface code demo

demo/QEC/surface_code.py:184-187 and :207-217: what is done with the nodes `PH` of the expanded network.
-/

namespace Verif

/-- `name[0]` in Python: the first entry of a tuple or letter of a string. -/
def Nm.first : Nm → Except Err Nm
  | .int _ => .error .type
  | .str s => match s.toList with
    | [] => .error .index
    | c :: _ => .ok (.str (String.singleton c))
  | .nil => .error .index
  | .cons a _ => .ok a

/-- `name[-1]` in Python: the last entry of a tuple or letter of a string. -/
def Nm.last : Nm → Except Err Nm
  | .int _ => .error .type
  | .str s => match s.toList.getLast? with
    | none => .error .index
    | some c => .ok (.str (String.singleton c))
  | .nil => .error .index
  | .cons a .nil => .ok a
  | .cons _ b => b.last

namespace Qec

variable {τ : Type}

/-- demo/QEC/surface_code.py:185-186: the body of the loop. -/
def openIfPH (tn : TN τ) (n : Nm) : Res τ Unit :=
  match n.last with
  | .error e => (tn, .error e)
  | .ok x =>
    if x = .str "PH" then
      match tn.removeNode n with
      | (tn', .ok _) => (tn', .ok ())
      | (tn', .error e) => (tn', .error e)
    else (tn, .ok ())

/-- demo/QEC/surface_code.py:184-187: the nodes `PH` are removed, which opens their legs; `nodes_by_name` is a list made before the loop
(tensor_network.py:147-151). -/
def openPH (tn : TN τ) : Res τ Unit := forLoop openIfPH tn.nodes.keys tn

/-- demo/QEC/surface_code.py:209-216: the body of the loop; the state is the network and `cnt`. `butterfly` are the rows of the matrix of :195; the
syndrome is never `None` (:191-192); `edges[0][0]` in :214 is the first entry of the name of the first leg. -/
def setIfPH [HasShape τ] (butterfly : Nat → Option τ) (syn : List Nat) (s : TN τ × Nat) (n : Nm) : (TN τ × Nat) × Except Err Unit :=
  match n.first with
  | .error e => (s, .error e)
  | .ok x =>
    if x = .str "PH" then
      match syn[s.2]?.bind butterfly with
      | none => (s, .error .index)
      | some row =>
        match s.1.updateNode n row with
        | (tn', .error e) => ((tn', s.2), .error e)
        | (tn', .ok ()) => ((tn', s.2 + 1), .ok ())
    else if x = .str "PH_nz" then
      match (s.1.nodes.get? n).bind fun r => r.legs.head? with
      | none => (s, .error .index)
      | some e =>
        match e.first with
        | .error er => (s, .error er)
        | .ok e0 =>
          match syn[s.2]? with
          | none => (s, .error .index)
          | some v =>
            match s.1.fixEdge e0 [v] with
            | (tn', .error er) => ((tn', s.2), .error er)
            | (tn', .ok ()) => ((tn', s.2 + 1), .ok ())
    else (s, .ok ())

/-- demo/QEC/surface_code.py:207-217: the loop of `surface_code_tensor_network_with_syndrome`. -/
def setPH [HasShape τ] (butterfly : Nat → Option τ) (syn : List Nat) (tn : TN τ) : (TN τ × Nat) × Except Err Unit :=
  forLoop (setIfPH butterfly syn) tn.nodes.keys (tn, 0)

end Qec

end Verif
