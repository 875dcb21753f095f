import Verif.Model.Expand
import Verif.Spec.Network
import Mathlib.Data.List.MinMax
import Mathlib.Analysis.Complex.Trigonometric
/-!
# Model of the QAOA demo (demo/QAOA/qaoa.py)

Variables are names, a clause is a tuple of variables, the instance (`csp`) gives an array to every clause.
Not modelled: the search for an order, the optimiser of scipy, printing.
-/

namespace Verif

/-- The name `(k, x)` of a node or an edge (qaoa.py:80-81, 88-89, 118). -/
def pt (k : Int) (x : Nm) : Nm := Nm.pair (.int k) x

/-- qaoa.py:85: `set(clause).intersection(qubits_set)` is not empty. -/
def clauseMeets (S c : List Nm) : Bool := c.any fun q => decide (q ∈ S)

section
variable {τ : Type} [HasShape τ]

/-- Two calls of `add_node` without data (qaoa.py:80-81, 88-89); `hole` is `Tensor(None)`. -/
def addTwo (hole : τ) (tn : TN τ) (p q : Nm × List Nm) : Res τ Unit :=
  match tn.addNode (some p.1) (.int 0) (some p.2) hole false with
  | (tn1, .error e) => (tn1, .error e)
  | (tn1, .ok _) =>
    match tn1.addNode (some q.1) (.int 0) (some q.2) hole false with
    | (tn2, .error e) => (tn2, .error e)
    | (tn2, .ok _) => (tn2, .ok ())

/-- qaoa.py:80-81: the rotations of a qubit in a layer. -/
def addRot (hole : τ) (i : Nat) (tn : TN τ) (q : Nm) : Res τ Unit :=
  addTwo hole tn (pt (2 * i + 1) q, [pt i q, pt (i + 1) q]) (pt (-2 * i - 1) q, [pt (-i) q, pt (-i - 1) q])

/-- qaoa.py:88-89: the phases of a clause in a layer. -/
def addPhase (hole : τ) (i : Nat) (tn : TN τ) (c : List Nm) : Res τ Unit :=
  addTwo hole tn (pt (2 * i + 2) (Nm.ofList c), c.map fun q => pt (i + 1) q) (pt (-2 * i - 2) (Nm.ofList c), c.map fun q => pt (-i - 1) q)

/-- qaoa.py:79-91: one layer.  The state is the network, `qubits_set` and `turns`; `perm` lists a set in the order of iteration. -/
def coneLayer (perm : List Nm → List Nm) (hole : τ) (csp : List (List Nm)) (i : Nat) (s : TN τ × List Nm × Dict Nm Nat) :
    Except Err (TN τ × List Nm × Dict Nm Nat) :=
  match forLoop (addRot hole i) (perm s.2.1) s.1 with
  | (_, .error e) => .error e
  | (tn1, .ok ()) =>
    match forLoop (addPhase hole i) (csp.filter (clauseMeets s.2.1)) tn1 with
    | (_, .error e) => .error e
    | (tn2, .ok ()) =>
      let new := ((csp.filter (clauseMeets s.2.1)).flatten.filter fun q => decide (q ∉ s.2.1)).dedup
      .ok (tn2, s.2.1 ++ new, (perm new).foldl (fun d q => d.set q (i + 1)) s.2.2)

/-- qaoa.py:78: the loop over the layers `i, i + 1, …`. -/
def coneLayers (perm : List Nm → List Nm) (hole : τ) (csp : List (List Nm)) : Nat → Nat → TN τ × List Nm × Dict Nm Nat → Except Err (TN τ × List Nm × Dict Nm Nat)
  | 0, _, s => .ok s
  | k + 1, i, s =>
    match coneLayer perm hole csp i s with
    | .error e => .error e
    | .ok s' => coneLayers perm hole csp k (i + 1) s'

/-- qaoa.py:92-93: the edges of a qubit outside the cone are joined. -/
def joinTurn (tn : TN τ) (p : Nm × Nat) : Res τ Unit :=
  match tn.mergeEdges [pt p.2 p.1, pt (-p.2) p.1] (some (pt 0 p.1)) none with
  | (tn1, .error e) => (tn1, .error e)
  | (tn1, .ok _) => (tn1, .ok ())

/-- qaoa.py:72-95: `lightcone`. -/
def lightcone (perm : List Nm → List Nm) (hole : τ) (qubits : List Nm) (csp : List (List Nm)) (L : Nat) : Except Err (TN τ × List Nm) :=
  match coneLayers perm hole csp L 0 ({}, qubits.dedup, []) with
  | .error e => .error e
  | .ok (tn, S, turns) =>
    match forLoop joinTurn turns tn with
    | (_, .error e) => .error e
    | (tn1, .ok ()) =>
      match tn1.updateDimension (tn1.edges.keys.map fun e => (e, some 2)) with
      | (_, .error e) => .error e
      | (tn2, .ok ()) => .ok (tn2, S)

/-- qaoa.py:115, 118: the network of a clause, and the number of qubits in its cone. -/
def clauseNet (perm : List Nm → List Nm) (hole : τ) (csp : List (List Nm)) (L : Nat) (clause : List Nm) : Except Err (TN τ × Nat) :=
  match lightcone perm hole clause csp L with
  | .error e => .error e
  | .ok (tn, S) =>
    match tn.addNode (some (pt 0 (Nm.ofList clause))) (.int 0) (some (clause.map fun q => pt 0 q)) hole false with
    | (_, .error e) => .error e
    | (tn1, .ok _) => .ok (tn1, S.length)

end

/-- `set_data` (qaoa.py:110-112): the network with the given arrays at its nodes. -/
def TN.withData {τ A : Type} (tn : TN τ) (f : Nm → A) : TN A :=
  { nodes := tn.nodes.map fun p => (p.1, ⟨p.2.legs, some (f p.1), p.2.frozen⟩), edges := tn.edges, adj := tn.adj, openE := tn.openE, idCount := tn.idCount }

/-- qaoa.py:121-127: the entry of `self.data` a node gets: `rot` are those with key `i`, `phase` those with key `(i, clause)`, `obs` is the array of
the clause times the factor. -/
def nodeData {A : Type} (rot : Int → A) (phase : Int → List Nm → A) (obs : A) : Nm → A
  | .cons (.int k) (.cons x _) => if k = 0 then obs else if k % 2 = 0 then phase (k / 2) x.tup else rot ((k + if k > 0 then 1 else -1) / 2)
  | _ => obs

/-- qaoa.py:9-11: `XRot`. -/
noncomputable def xrot (θ : ℝ) : Arr ℂ :=
  ⟨[2, 2], fun idx => if idx.getD 0 0 = idx.getD 1 0 then Complex.cos θ else Complex.I * Complex.sin θ⟩

/-- Python `l[-i]` (qaoa.py:105-109). -/
noncomputable def fromEnd (l : List ℝ) (i : Nat) : ℝ := l.getD (l.length - i) 0

/-- qaoa.py:102-106: `data[i]` after `decorate`; `none` for `None` or no such key. -/
noncomputable def rotData (L : Nat) (params : List ℝ) (j : Int) : Option (Arr ℂ) :=
  if 1 ≤ j ∧ j ≤ L then some (xrot (fromEnd (params.take L) j.toNat))
  else if 1 ≤ -j ∧ -j ≤ L then some (xrot (-fromEnd (params.take L) (-j).toNat))
  else none

/-- qaoa.py:107-109: `data[(i, clause)]` after `decorate`, for the clauses in `self.clauses`. -/
noncomputable def phaseData (L : Nat) (params : List ℝ) (csp : Dict (List Nm) (Arr ℝ)) (clauses : List (List Nm)) (j : Int) (c : List Nm) : Option (Arr ℂ) :=
  if c ∈ clauses then
    match csp.get? c with
    | none => none
    | some C =>
      if 1 ≤ j ∧ j ≤ L then some ⟨C.shape, fun idx => Complex.exp (Complex.I * (fromEnd (params.drop L) j.toNat * C.get idx))⟩
      else if 1 ≤ -j ∧ -j ≤ L then some ⟨C.shape, fun idx => Complex.exp (-Complex.I * (fromEnd (params.drop L) (-j).toNat * C.get idx))⟩
      else none
  else none

/-- qaoa.py:116-117, 123: the array of the clause itself; `n` is the number of qubits in its cone, `m` its weight. -/
noncomputable def obsData (csp : Dict (List Nm) (Arr ℝ)) (m : ℝ) (n : Nat) (clause : List Nm) : Option (Arr ℂ) :=
  (csp.get? clause).map fun C => ⟨C.shape, fun idx => m * (2 : ℂ)⁻¹ ^ n * C.get idx⟩

/-- qaoa.py:97-128: the data of a node of the network of a clause. -/
noncomputable def clauseData (L : Nat) (params : List ℝ) (csp : Dict (List Nm) (Arr ℝ)) (clauses : List (List Nm)) (m : ℝ) (n : Nat) (clause : List Nm) : Nm → Option (Arr ℂ) :=
  nodeData (rotData L params) (phaseData L params csp clauses) (obsData csp m n clause)

/-- The entries of an array, zero without data (no code: used for the value of a network). -/
def optGet {R : Type} [Zero R] (a : Option (Arr R)) (idx : List Nat) : R := (a.map fun a => a.get idx).getD 0

/-- qaoa.py:114-128, 181: what the task of a clause computes after `decorate` (`tn.compile` and `execute` stand for the value of the network). -/
noncomputable def clauseQuery {τ : Type} [HasShape τ] (perm : List Nm → List Nm) (hole : τ) (csp : Dict (List Nm) (Arr ℝ)) (L : Nat) (params : List ℝ) (clauses : List (List Nm))
    (m : ℝ) (clause : List Nm) : Except Err ℂ :=
  match clauseNet perm hole csp.keys L clause with
  | .error e => .error e
  | .ok (tn, n) => .ok ((tn.withData (clauseData L params csp clauses m n clause)).value optGet [])

/-- qaoa.py:130-145, 170-184: `preprocess` with weights 1 and then `query`: the sum over the clauses. -/
noncomputable def query {τ : Type} [HasShape τ] (perm : List Nm → List Nm) (hole : τ) (csp : Dict (List Nm) (Arr ℝ)) (L : Nat) (params : List ℝ) (clauses : List (List Nm)) : Except Err ℂ :=
  (clauses.mapM fun c => clauseQuery perm hole csp L params clauses 1 c).map List.sum

/-- qaoa.py:55-59: `lst_var`, in the order of the clauses. -/
def cspVars (csp : List (List Nm)) : List Nm := csp.flatten.dedup

/-- qaoa.py:189: `assignment[k]` for a tuple; `none` is the exception for other names and indices out of range. -/
def tupleAt (l : List Nat) : Nm → Option Nat
  | .int k => if 0 ≤ k then l[k.toNat]? else if 0 ≤ (l.length : Int) + k then l[((l.length : Int) + k).toNat]? else none
  | _ => none

/-- qaoa.py:186-190: `energy`. -/
noncomputable def energy (csp : Dict (List Nm) (Arr ℝ)) (l : List Nat) : Option ℝ := (csp.mapM fun (p : List Nm × Arr ℝ) => (p.1.mapM (tupleAt l)).map p.2.get).map List.sum

/-- `itertools.product([0, 1], repeat=n)` (qaoa.py:193). -/
def allTuples : Nat → List (List Nat)
  | 0 => [[]]
  | n + 1 => [0, 1].flatMap fun b => (allTuples n).map (b :: ·)

/-- qaoa.py:192-195: `optimum`. -/
noncomputable def optimum (csp : Dict (List Nm) (Arr ℝ)) : Option (ℝ × List Nat) :=
  match (allTuples (cspVars csp.keys).length).mapM fun l => (energy csp l).map fun e => (e, l) with
  | none => none
  | some r => r.argmin Prod.fst

/-- qaoa.py:14-38: `checkinstance`, for a dictionary of tuples: the number of indices is that of variables, and all dimensions are 2. -/
def checkInstance {R : Type} (csp : Dict (List Nm) (Arr R)) : Bool := csp.all fun p => decide (p.1.length = p.2.shape.length) && p.2.shape.all (· == 2)

end Verif
