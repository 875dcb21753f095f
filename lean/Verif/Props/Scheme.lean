import Verif.Model.Scheme
/-!
# C29: schemes survive a save/load round trip
-/

namespace Verif

private theorem tuplize_toJ (n : Nm) : n.toJ.tuplize = n := by
  induction n with
  | cons a b iha ihb => simp [Nm.toJ, J.tuplize, iha, ihb]
  | _ => rfl

private theorem toList_ofList (l : List J) : (J.ofList l).toList = some l := by
  induction l with
  | nil => rfl
  | cons x xs ih => simp [J.ofList, J.toList, ih]

private theorem loadStep_pair (a b r : Nm) :
    (J.ofList [J.ofList ([a, b].map Nm.toJ), r.toJ]).loadStep = some ([a, b], r) := by
  simp [J.loadStep, toList_ofList, tuplize_toJ]

private theorem loadSteps (os : List Step) (h : ∀ st ∈ os, st.1.length = 2) :
    (os.map fun st : Step => J.ofList [J.ofList (st.1.map Nm.toJ), st.2.toJ]).mapM J.loadStep
      = some os := by
  induction os with
  | nil => rfl
  | cons st os ih =>
    obtain ⟨ops, r⟩ := st
    have hl : ops.length = 2 := h (ops, r) (by simp)
    match ops, hl with
    | [a, b], _ =>
      rw [List.map_cons, List.mapM_cons, loadStep_pair, ih (fun st hst => h st (by simp [hst]))]
      rfl

/-- C29 (partial): a scheme whose steps all have exactly two operands is restored by dump and load:
order, slices and cost are equal.  Missing: schemes with steps of another number of operands
(`c29_one_operand_violated`). -/
theorem c29_roundtrip_partial (s : Scheme) (h : ∀ st ∈ s.order, st.1.length = 2) :
    Scheme.load s.dump = some s := by
  unfold Scheme.load Scheme.dump
  simp only [toList_ofList]
  simp only [Option.bind_eq_bind, Option.bind_some, loadSteps s.order h, J.loadCost, toList_ofList,
    J.toNat, List.map_map, Option.pure_def]
  have : (J.tuplize ∘ Nm.toJ) = id := funext tuplize_toJ
  simp [this]

example : ∀ st ∈ (⟨[([.str "a", .pair (.str "b") (.int 3)], .pair (.str "#") (.int 0)),
    ([.pair (.str "#") (.int 0), .int 7], .str "#")], [.pair (.int 1) (.int 2)], ⟨100, 8, 1⟩⟩ : Scheme).order,
    st.1.length = 2 := by decide

/-- C29: `load` accepts a file written by `dump` exactly when every step has two operands. -/
theorem c29_load_accepts_iff (s : Scheme) :
    (Scheme.load s.dump).isSome ↔ ∀ st ∈ s.order, st.1.length = 2 := by
  constructor
  · intro h st hst
    by_contra hne
    have hstep : (J.ofList [J.ofList (st.1.map Nm.toJ), st.2.toJ]).loadStep = none := by
      unfold J.loadStep
      simp only [toList_ofList, Option.bind_eq_bind, Option.bind_some]
      match hst1 : st.1 with
      | [] => rfl
      | [_] => rfl
      | [_, _] => exact absurd (by rw [hst1]; rfl) hne
      | _ :: _ :: _ :: _ => rfl
    have hm : ∀ os : List Step, st ∈ os →
        (os.map fun st : Step => J.ofList [J.ofList (st.1.map Nm.toJ), st.2.toJ]).mapM J.loadStep
        = none := by
      intro os
      induction os with
      | nil => simp
      | cons o os ih =>
        intro hmem
        rw [List.map_cons, List.mapM_cons]
        rcases List.mem_cons.1 hmem with rfl | hmem
        · rw [hstep]; rfl
        · rw [ih hmem]
          cases (J.ofList [J.ofList (o.1.map Nm.toJ), o.2.toJ]).loadStep <;> rfl
    unfold Scheme.load Scheme.dump at h
    simp [toList_ofList, hm s.order hst] at h
  · intro h
    rw [c29_roundtrip_partial s h]
    rfl

/-- C29 violated: the one-operand step that `path_to_paired_order` can emit (local_optimizer.py:140)
is written by `dump` but cannot be loaded again. -/
theorem c29_one_operand_violated : ∃ s : Scheme, Scheme.load s.dump ≠ some s :=
  ⟨⟨[([.str "a"], .str "#")], [], Cost.zero⟩, by decide⟩

end Verif
