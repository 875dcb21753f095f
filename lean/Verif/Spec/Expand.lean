import Verif.Model.Expand
import Verif.Spec.Network
import Mathlib.Logic.Relation
/-!
# Specification: networks that can be flattened
-/

namespace Verif

namespace TN

variable {τ : Type}

/-- The dimension of every edge is known, and fixes are in range. -/
def Sized (tn : TN τ) : Prop :=
  ∀ e r, tn.edges.get? e = some r → ∃ d, r.dim = some d ∧ ∀ f, r.fix = some f → ∀ v ∈ f, v < d

/-- The dimension of an edge. -/
def edim (tn : TN τ) (e : Nm) : Option Nat := (tn.edges.get? e).bind EdgeRec.dim

/-- The edge is fixed. -/
def IsFixed (tn : TN τ) (e : Nm) : Prop := ∃ r l, tn.edges.get? e = some r ∧ r.fix = some l

/-- All fixed edges are fixed to at most one value. -/
def FixShort (tn : TN τ) : Prop := ∀ e r l, tn.edges.get? e = some r → r.fix = some l → l.length ≤ 1

/-- What is assumed of `networkx.connected_components` and `sorted`: the components of a graph are disjoint, without
repetition, cover the links, and any two members are connected by links; sorting succeeds (the names of edges can be
compared) and returns a member. -/
structure Glue.Sound (G : Glue) : Prop where
  nodup : ∀ links, ∀ C ∈ G.comps links, C.Nodup
  nonempty : ∀ links, ∀ C ∈ G.comps links, C ≠ []
  disjoint : ∀ links, (G.comps links).Pairwise fun C D => ∀ x ∈ C, x ∉ D
  cover : ∀ links, ∀ p ∈ links, ∃ C ∈ G.comps links, p.1 ∈ C ∧ p.2 ∈ C
  ends : ∀ links, ∀ C ∈ G.comps links, ∀ x ∈ C, ∃ p ∈ links, x = p.1 ∨ x = p.2
  connected : ∀ links, ∀ C ∈ G.comps links, ∀ x ∈ C, ∀ y ∈ C, Relation.EqvGen (fun a b => (a, b) ∈ links) x y
  last : ∀ l : List Nm, l ≠ [] → ∃ m ∈ l, G.last l = some m

end TN

/-- Name `x` is a tuple starting with the entries of name `n` and going on. -/
def Nm.Under (n x : Nm) : Prop := ∃ y, y ≠ [] ∧ x.tup = n.tup ++ y

namespace TVal

variable {R : Type}

/-- The value is a network. -/
def IsNet (t : TVal R) : Prop := ∃ tn : TN (TVal R), t = ofTN tn

/-- Names that prefixing cannot confuse: no name is the empty tuple, none is the 1-tuple of another, and none of this
network starts with the name of a node that holds a network. -/
structure Named (tn : TN (TVal R)) : Prop where
  nodes_inj : ∀ n ∈ tn.nodes.keys, ∀ n' ∈ tn.nodes.keys, n.tup = n'.tup → n = n'
  edges_inj : ∀ e ∈ tn.edges.keys, ∀ e' ∈ tn.edges.keys, e.tup = e'.tup → e = e'
  nodes_ne : ∀ n ∈ tn.nodes.keys, n.tup ≠ []
  edges_ne : ∀ e ∈ tn.edges.keys, e.tup ≠ []
  nodes_under : ∀ n r t, tn.nodes.get? n = some r → r.ten = some t → t.IsNet → ∀ n' ∈ tn.nodes.keys, ¬ n.Under n'
  edges_under : ∀ n r t, tn.nodes.get? n = some r → r.ten = some t → t.IsNet → ∀ e ∈ tn.edges.keys, ¬ n.Under e

/-- Networks nested at most `k` deep that are consistent, have known dimensions, a tensor of fitting shape at every node
(no view), and harmless names. -/
def Expandable : Nat → TN (TVal R) → Prop
  | 0, _ => False
  | k + 1, tn => tn.Consistent ∧ tn.Sized ∧ Named tn ∧
      ∀ n r, tn.nodes.get? n = some r → ∃ t, r.ten = some t ∧ (∀ u, t ≠ .view u) ∧
        ∀ s : TN (TVal R), t = ofTN s → Expandable k s ∧ s.shape? = some (r.legs.map tn.edim)

/-- Every edge of a network is on a leg (or, if `b`, open). -/
def Edgy (b : Prop) (tn : TN (TVal R)) : Prop := ∀ e ∈ tn.edges.keys, (∃ p ∈ tn.nodes, e ∈ p.2.legs) ∨ (b ∧ e ∈ tn.openE)

/-- A network has no bare wire. -/
def NoWire : TVal R → Prop
  | .net ns es adj op c => Edgy False ⟨ns, es, adj, op, c⟩
  | _ => True

mutual
/-- No network inside has a loose edge, and those at nodes have no bare wires. -/
def Tight : TVal R → Prop
  | .ten _ => True
  | .net ns es adj op c => TN.Consistent (⟨ns, es, adj, op, c⟩ : TN (TVal R)) ∧ Edgy True ⟨ns, es, adj, op, c⟩ ∧ TightNodes ns
  | .sum ts => TightTerms ts
  | .view t => Tight t

/-- The same for the tensors at nodes. -/
def TightNodes : List (Nm × NodeRec (TVal R)) → Prop
  | [] => True
  | (_, ⟨_, none, _⟩) :: ns => TightNodes ns
  | (_, ⟨_, some t, _⟩) :: ns => (Tight t ∧ NoWire t) ∧ TightNodes ns

/-- The same for the terms of a sum. -/
def TightTerms : List (Nm × TVal R) → Prop
  | [] => True
  | (_, t) :: ts => Tight t ∧ TightTerms ts
end

mutual
/-- At all levels of nesting every node has a tensor whose shape is that of the edges on its legs. -/
def Fit : TVal R → Prop
  | .net ns es _ _ _ => FitNodes es ns
  | _ => True

/-- The same for the nodes of a network with edges `es`. -/
def FitNodes (es : Dict Nm EdgeRec) : List (Nm × NodeRec (TVal R)) → Prop
  | [] => True
  | (_, ⟨_, none, _⟩) :: _ => False
  | (_, ⟨legs, some t, _⟩) :: ns =>
    (t.shape = some (legs.map fun e => (es.get? e).bind EdgeRec.dim) ∧ Fit t) ∧ FitNodes es ns
end

/-- Every edge of a network is on a leg or fixed (or, if `b`, open). -/
def Moored (b : Prop) (tn : TN (TVal R)) : Prop :=
  ∀ e ∈ tn.edges.keys, (∃ p ∈ tn.nodes, e ∈ p.2.legs) ∨ tn.IsFixed e ∨ (b ∧ e ∈ tn.openE)

/-- The same of a tensor, if it is a network. -/
def MooredNet : TVal R → Prop
  | .net ns es adj op c => Moored False ⟨ns, es, adj, op, c⟩
  | _ => True

mutual
/-- At all levels of nesting edges are fixed to at most one value, and every edge of a network at a node is on a leg or
fixed. -/
def Firm : TVal R → Prop
  | .net ns es adj op c => TN.FixShort (⟨ns, es, adj, op, c⟩ : TN (TVal R)) ∧ FirmNodes ns
  | _ => True

/-- The same for the nodes of a network. -/
def FirmNodes : List (Nm × NodeRec (TVal R)) → Prop
  | [] => True
  | (_, ⟨_, none, _⟩) :: ns => FirmNodes ns
  | (_, ⟨_, some t, _⟩) :: ns => (Firm t ∧ MooredNet t) ∧ FirmNodes ns
end

theorem firmNodes_iff (ns : List (Nm × NodeRec (TVal R))) :
    FirmNodes ns ↔ ∀ p ∈ ns, ∀ t, p.2.ten = some t → Firm t ∧ MooredNet t := by
  induction ns with
  | nil => simp [FirmNodes]
  | cons p ns ih =>
    obtain ⟨n, ⟨legs, t, f⟩⟩ := p
    cases t <;> simp [FirmNodes, ih]

theorem firm_ofTN (tn : TN (TVal R)) : Firm (ofTN tn) ↔
    tn.FixShort ∧ ∀ p ∈ tn.nodes, ∀ t, p.2.ten = some t → Firm t ∧ MooredNet t := by
  unfold ofTN
  rw [Firm, firmNodes_iff]

theorem fitNodes_iff (es : Dict Nm EdgeRec) (ns : List (Nm × NodeRec (TVal R))) : FitNodes es ns ↔ ∀ p ∈ ns,
    ∃ t, p.2.ten = some t ∧ t.shape = some (p.2.legs.map fun e => (es.get? e).bind EdgeRec.dim) ∧ Fit t := by
  induction ns with
  | nil => simp [FitNodes]
  | cons p ns ih =>
    obtain ⟨n, ⟨legs, t, f⟩⟩ := p
    cases t <;> simp [FitNodes, ih]

theorem fit_ofTN (tn : TN (TVal R)) : Fit (ofTN tn) ↔
    ∀ p ∈ tn.nodes, ∃ t, p.2.ten = some t ∧ t.shape = some (p.2.legs.map tn.edim) ∧ Fit t := by
  unfold ofTN
  rw [Fit, fitNodes_iff]; rfl

theorem tightNodes_iff (ns : List (Nm × NodeRec (TVal R))) :
    TightNodes ns ↔ ∀ p ∈ ns, ∀ t, p.2.ten = some t → Tight t ∧ NoWire t := by
  induction ns with
  | nil => simp [TightNodes]
  | cons p ns ih =>
    obtain ⟨n, ⟨legs, t, f⟩⟩ := p
    cases t <;> simp [TightNodes, ih]

theorem tight_ofTN (tn : TN (TVal R)) : Tight (ofTN tn) ↔
    tn.Consistent ∧ Edgy True tn ∧ ∀ p ∈ tn.nodes, ∀ t, p.2.ten = some t → Tight t ∧ NoWire t := by
  unfold ofTN
  rw [Tight, tightNodes_iff]

end TVal

end Verif
