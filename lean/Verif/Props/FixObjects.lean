import Verif.Props.Conj
import Verif.Props.FixMerge
/-!
# C19 for tensors and sums of tensors
-/

namespace Verif

namespace TVal

variable {R : Type} [CommSemiring R] [Star R]

mutual
/-- No edge of the network, or of the networks under the sum, is fixed to no value at all. -/
def Clear : TVal R → Prop
  | .ten _ => True
  | .net ns es adj op c => ¬ TN.Void (⟨ns, es, adj, op, c⟩ : TN (TVal R))
  | .sum ts => ClearTerms ts
  | .view _ => True
/-- For every term. -/
def ClearTerms : List (Nm × TVal R) → Prop
  | [] => True
  | (_, t) :: ts => Clear t ∧ ClearTerms ts
end

mutual
theorem fixVal_val {i v : Nat} : ∀ (t t' : TVal R), fixVal i v t = .ok t' → Clear t' → ∀ idx,
    t'.val idx = t.val (idx.insertIdx i v)
  | .ten none, t', h, _, idx => by
    rw [fixVal, fixTensor] at h; cases h; simp [val]
  | .ten (some a), t', h, _, idx => by
    rw [fixVal, fixTensor] at h
    split at h
    · cases h
    · split at h
      · cases h; simp [val]
      · cases h
  | .net ns es adj op c, t', h, hc, idx => by
    rw [fixVal] at h
    cases hf : (TN.mk ns es adj op c : TN (TVal R)).fixIndex i v with
    | mk tn r =>
      rw [hf] at h
      cases r with
      | error e => cases h
      | ok u =>
        cases h
        have := c19_network (tn := (TN.mk ns es adj op c : TN (TVal R))) (tn' := tn) val (fs := [(i, v)])
          (by simp [TN.fixSeq, forLoop, hf]) (by unfold ofTN at hc; rw [Clear] at hc; exact hc) idx
        rw [val_ofTN, this, ← val_ofTN]
        rfl
  | .sum ts, t', h, hc, idx => by
    rw [fixVal] at h
    split at h
    · cases h
    · cases hf : fixTerms i v ts with
      | error e => rw [hf] at h; cases h
      | ok ts' =>
        rw [hf] at h; cases h
        rw [Clear] at hc
        have := fixTerms_val ts ts' hf hc idx
        rw [val, val]; exact this
  | .view _, t', h, _, _ => by rw [fixVal] at h; cases h
theorem fixTerms_val {i v : Nat} : ∀ (ts ts' : List (Nm × TVal R)), fixTerms i v ts = .ok ts' → ClearTerms ts' → ∀ idx,
    valSum ts' idx = valSum ts (idx.insertIdx i v)
  | [], ts', h, _, idx => by rw [fixTerms] at h; cases h; simp [valSum]
  | (n, t) :: ts, ts', h, hc, idx => by
    rw [fixTerms] at h
    split at h
    · rename_i t1 ts1 h1 h2
      cases h
      rw [ClearTerms] at hc
      rw [valSum, valSum, fixVal_val t t1 h1 hc.1, fixTerms_val ts ts1 h2 hc.2]
    · cases h
    · cases h
end

/-- C19 for tensors, networks and (nested) sums: if `fix_index(i, v)` succeeds, the returned object stands for the
slice of the original at index `i` equal to `v`.  Partial: as for networks (`c19_network`), no edge may end up fixed to
no value; a view returns `None` (`c19_view_violated`). -/
theorem c19_objects_partial {i v : Nat} {t t' : TVal R} (h : fixVal i v t = .ok t') (hc : Clear t') (idx : List Nat) :
    t'.val idx = t.val (idx.insertIdx i v) := fixVal_val t t' h hc idx

/-- C19 for arrays: `fix_index(i, v)` succeeds exactly if `i` is an index and `v` a value of it; that index is dropped
from the shape. -/
theorem c19_tensor {i v : Nat} {a : Arr R} :
    (∃ t', fixVal i v (.ten (some a)) = .ok t') ↔ ∃ d, a.shape[i]? = some d ∧ v < d := by
  rw [fixVal, fixTensor]
  constructor
  · rintro ⟨t', h⟩
    split at h
    · cases h
    · rename_i d hd
      split at h
      · rename_i hv; exact ⟨d, hd, hv⟩
      · cases h
  · rintro ⟨d, hd, hv⟩
    rw [hd]
    exact ⟨_, by simp [hv, Except.map]; rfl⟩

/-- `c19_tensor`: the shape of the slice. -/
theorem c19_tensor_shape {i v : Nat} {a : Arr R} {t' : TVal R} (h : fixVal i v (.ten (some a)) = .ok t') :
    t'.shape = some ((a.shape.eraseIdx i).map some) := by
  rw [fixVal, fixTensor] at h
  split at h
  · cases h
  · split at h
    · cases h; rw [shape]
    · cases h

/-- `c19_objects_partial` on a sum of two matrices. -/
example : ∃ t' : TVal Nat, fixVal 0 1 (.sum [(.int 0, arrVal [2, 2] fun i => i.sum), (.int 1, arrVal [2, 2] fun i => i.prod)]) =
    .ok t' ∧ t'.val [1] = 3 := by
  refine ⟨_, rfl, ?_⟩
  rw [c19_objects_partial (i := 0) (v := 1)
    (t := .sum [(.int 0, arrVal [2, 2] fun i => i.sum), (.int 1, arrVal [2, 2] fun i => i.prod)]) rfl
    (by simp [Clear, ClearTerms])]
  decide

/-- C19 fails for views: `fix_index` of a view does not return an object. -/
theorem c19_view_violated (i v : Nat) (t : TVal R) : fixVal i v (.view t) = .error .type := by rw [fixVal]

/-- C19 for sums: the call changes the sum it is called on.  A matrix is added to a sum, then the first index of the
sum is fixed to 1: the sum itself now has a vector as its only term, while it still claims the shape (2, 2). -/
theorem c19_sum_inplace_violated : ∃ s s' r : TSum (TVal Nat),
    (({} : TSum (TVal Nat)).addTerm none (.int 0) (arrVal [2, 2] fun i => i.sum)).1 = s ∧
    fixSum 0 1 s = .ok (s', r) ∧
    s'.shapeProp.2 = .ok (some [some 2, some 2]) ∧ s'.terms.map (fun p => p.2.shape) = [some [some 2]] ∧
    r.shapeProp.2 = .ok (some [some 2]) :=
  ⟨_, _, _, rfl, rfl, rfl, rfl, rfl⟩

end TVal

end Verif
