import Verif.Model.TN
/-!
# Model of `TensorSum` (acqdp/tensor_network/tensor_sum.py): terms and the cached shape
-/

namespace Verif

/-- The attributes of a `TensorSum`: `terms_by_name` (tensor_sum.py:18) and `_cached_shape` (:43-60;
outer `none`: the attribute does not exist, inner `none`: it is `None`). -/
structure TSum (τ : Type) where
  terms : Dict Nm τ := []
  cache : Option (Option (List (Option Nat))) := none
  deriving DecidableEq

namespace TSum

variable {τ : Type}

/-- tensor_sum.py:36-40: the loop of `_update_shape` over two lists of equal length.  The list `curr` is
changed in place, so its state is returned also when the loop raises. -/
def updateLoop : List (Option Nat) → List (Option Nat) → List (Option Nat) × Except Err Unit
  | [], _ => ([], .ok ())
  | c, [] => (c, .ok ())
  | none :: c, t :: ts => let r := updateLoop c ts; (t :: r.1, r.2)
  | some d :: c, none :: ts => let r := updateLoop c ts; (some d :: r.1, r.2)
  | some d :: c, some d' :: ts =>
    if d' = d then let r := updateLoop c ts; (some d :: r.1, r.2) else (some d :: c, .error .value)

/-- tensor_sum.py:29-41: `_update_shape(curr, tmp)`: the state of the object `curr` afterwards and the
returned value. -/
def updateShape (curr tmp : Option (List (Option Nat))) :
    Option (List (Option Nat)) × Except Err (Option (List (Option Nat))) :=
  match tmp, curr with
  | none, curr => (curr, .ok curr)
  | some t, none => (none, .ok (some t))
  | some t, some c =>
    if c.length = t.length then
      match updateLoop c t with
      | (c', .ok ()) => (some c', .ok (some c'))
      | (c', .error e) => (some c', .error e)
    else (some c, .error .value)

/-- tensor_sum.py:55-58: computing the shape from the terms (`curr` is a local list). -/
def scan [HasShape τ] : Dict Nm τ → Option (List (Option Nat)) → Except Err (Option (List (Option Nat)))
  | [], c => .ok c
  | (_, t) :: ts, c =>
    match (updateShape c (HasShape.shape t)).2 with
    | .ok c' => scan ts c'
    | .error e => .error e

/-- tensor_sum.py:47-60: the `shape` property, which fills the cache. -/
def shapeProp [HasShape τ] (s : TSum τ) : TSum τ × Except Err (Option (List (Option Nat))) :=
  match s.cache with
  | some c => (s, .ok c)
  | none =>
    match scan s.terms none with
    | .ok c => ({ s with cache := some c }, .ok c)
    | .error e => (s, .error e)

/-- tensor_sum.py:93-117: `add_term(term, tensor)`; `ident` is `tensor.identifier`. -/
def addTerm [HasShape τ] (s : TSum τ) (name : Option Nm) (ident : Nm) (t : τ) : TSum τ × Except Err Nm :=
  let term := name.getD ident
  if s.terms.has term then (s, .error .key)
  else
    match HasShape.shape t with
    | none => ({ s with terms := s.terms.set term t }, .ok term)
    | some sh =>
      match s.shapeProp with
      | (s1, .error e) => (s1, .error e)
      | (s1, .ok c) =>
        match updateShape c (some sh) with
        | (_, .ok c') => ({ terms := s1.terms.set term t, cache := some c' }, .ok term)
        | (c', .error e) => ({ s1 with cache := some c' }, .error e)

/-- tensor_sum.py:123-140: `update_term(term, tensor)`. -/
def updateTerm (s : TSum τ) (term : Nm) (t : τ) : TSum τ × Except Err Nm :=
  if s.terms.has term then ({ terms := s.terms.set term t, cache := none }, .ok term)
  else (s, .error .key)

/-- tensor_sum.py:142-151: `remove_term(term)`. -/
def removeTerm (s : TSum τ) (term : Nm) : TSum τ × Except Err τ :=
  match s.terms.get? term with
  | some t => ({ terms := s.terms.del term, cache := none }, .ok t)
  | none => (s, .error .key)

/-- tensor_sum.py:62-76: `is_valid`. -/
def isValid [HasShape τ] (s : TSum τ) : TSum τ × Bool :=
  match s.shapeProp with
  | (s', .ok _) => (s', true)
  | (s', .error _) => (s', false)

/-- The public calls on a `TensorSum` (the methods cited at the individual functions). `alter term t` stands
for an edit of the object stored under `term` made through another reference to it (for instance
`open_edge` on a network that has been added as a term): the sum is not told about it. -/
inductive SumOp (τ : Type) where
  | addTerm (name : Option Nm) (ident : Nm) (t : τ)
  | updateTerm (term : Nm) (t : τ)
  | removeTerm (term : Nm)
  | shape
  | isValid
  | alter (term : Nm) (t : τ)

/-- One call: the object afterwards and whether the call returned. -/
def step [HasShape τ] (s : TSum τ) : SumOp τ → TSum τ × Except Err Unit
  | .addTerm name ident t => let r := s.addTerm name ident t; (r.1, r.2.map fun _ => ())
  | .updateTerm n t => let r := s.updateTerm n t; (r.1, r.2.map fun _ => ())
  | .removeTerm n => let r := s.removeTerm n; (r.1, r.2.map fun _ => ())
  | .shape => let r := s.shapeProp; (r.1, r.2.map fun _ => ())
  | .isValid => (s.isValid.1, .ok ())
  | .alter n t => ({ s with terms := s.terms.modify n fun _ => t }, .ok ())

/-- A history of calls, rejected ones included (the caller catches the exceptions). -/
def run [HasShape τ] : TSum τ → List (SumOp τ) → TSum τ
  | s, [] => s
  | s, op :: ops => (s.step op).1.run ops

/-- tensor_sum.py:187-191: `copy`: the terms (the same objects) are added to a new sum one by one. -/
def copyLoop [HasShape τ] : TSum τ → Dict Nm τ → Except Err (TSum τ)
  | s, [] => .ok s
  | s, (n, t) :: ts =>
    match s.addTerm (some n) n t with
    | (s', .ok _) => copyLoop s' ts
    | (_, .error e) => .error e

/-- tensor_sum.py:187-191. -/
def copy [HasShape τ] (s : TSum τ) : Except Err (TSum τ) := copyLoop {} s.terms

end TSum

end Verif
