import Verif.Model.Compile
import Verif.Spec.Order
import Verif.Lemmas.Expr
/-! # Helper lemmas: from valid orders to complete paths -/

namespace Verif

theorem ValidOrder.perm {ns ns' : List Nm} {o : List (List Nm × Nm)} {last : Nm} (h : ValidOrder ns o last)
    (hp : ns.Perm ns') : ValidOrder ns' o last := by
  cases h with
  | done => rw [List.perm_singleton.1 hp.symm]; exact .done _
  | step h1 h2 h3 h4 => exact .step (hp.symm.trans h1) h2 h3 h4

/-- A valid order of pairs gives a complete path. -/
theorem pathOf_ok {o : List OrderStep} {ns : List Nm} {last : Nm} (h : ValidOrder ns o last) (h2 : Pairwise2 o)
    (hn : ns.Nodup) (hne : o ≠ []) : ∃ p, pathOf ns o = some p ∧ PathOK ns.length p ∧ p ≠ [] := by
  induction o generalizing ns with
  | nil => exact absurd rfl hne
  | cons s o ih =>
    obtain ⟨xs, z⟩ := s
    cases h with
    | @step _ _ rest _ _ _ hperm _ hz hv =>
      have hl : xs.length = 2 := h2 (xs, z) (by simp)
      match xs, hl with
      | [x, y], _ =>
        have hn' : (x :: y :: rest).Nodup := hperm.nodup_iff.1 hn
        have hx : x ∈ ns := hperm.mem_iff.2 (by simp)
        have hy : y ∈ ns := hperm.mem_iff.2 (by simp)
        have hxy : x ≠ y := by
          intro hc
          rw [List.nodup_cons] at hn'
          exact hn'.1 (by simp [hc])
        have hye : y ∈ ns.erase x := (List.mem_erase_of_ne hxy.symm).2 hy
        have hp1 : (ns.erase x).Perm (y :: rest) := by
          have := hperm.erase x
          simpa using this
        have hp2 : ((ns.erase x).erase y).Perm rest := by
          have := hp1.erase y
          simpa using this
        have hp3 : ((ns.erase x).erase y ++ [z]).Perm (z :: rest) := by
          refine (List.perm_append_comm).trans ?_
          exact hp2.cons z
        have hn3 : ((ns.erase x).erase y ++ [z]).Nodup := by
          rw [hp3.nodup_iff, List.nodup_cons]
          rw [List.nodup_cons, List.nodup_cons] at hn'
          exact ⟨hz, hn'.2.2⟩
        have hlen : ns.length = rest.length + 2 := by simpa using hperm.length_eq
        have hlen3 : ((ns.erase x).erase y ++ [z]).length = rest.length + 1 := by simpa using hp3.length_eq
        have hij : ns.idxOf x ≠ ns.idxOf y := fun hc => hxy ((List.idxOf_inj hx).1 hc)
        have hix : ns.idxOf x < ns.length := List.idxOf_lt_length_iff.2 hx
        have hiy : ns.idxOf y < ns.length := List.idxOf_lt_length_iff.2 hy
        by_cases ho : o = []
        · subst ho
          refine ⟨[(ns.idxOf x, ns.idxOf y)], ?_, ?_, by simp⟩
          · rw [pathOf, if_pos ⟨hx, hy, hye⟩]; rfl
          · cases hv
            exact ⟨hij, hix, hiy, by simpa using hlen⟩
        · obtain ⟨p, hp, hok, hpn⟩ := ih (hv.perm hp3.symm) (fun s hs => h2 s (by simp [hs])) hn3 ho
          refine ⟨(ns.idxOf x, ns.idxOf y) :: p, ?_, ?_, by simp⟩
          · rw [pathOf, if_pos ⟨hx, hy, hye⟩, hp]; rfl
          · match p, hpn with
            | q :: p, _ =>
              refine ⟨hij, hix, hiy, ?_⟩
              rw [show ns.length - 1 = rest.length + 1 by omega, ← hlen3]
              exact hok

end Verif
