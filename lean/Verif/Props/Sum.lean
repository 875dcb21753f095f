import Verif.Model.Sum
import Verif.Spec.SumShape
import Verif.Base.Shp
/-!
# C23: the shape reported by a `TensorSum` after any history of calls
-/

set_option linter.unusedSectionVars false

namespace Verif

namespace TSum

variable {τ : Type} [HasShape τ]

/-- The known shapes among the terms. -/
def shapesOf (ts : Dict Nm τ) : List (List (Option Nat)) := ts.filterMap fun p => HasShape.shape p.2

/-- `c` is the common shape of the shapes `ss` (`none` if there are none). -/
def MergeOf (ss : List (List (Option Nat))) : Option (List (Option Nat)) → Prop
  | none => ss = []
  | some s => ss ≠ [] ∧ IsMerge ss s

theorem updateLoop_ok : ∀ (c t : List (Option Nat)), c.length = t.length → ∀ c', updateLoop c t = (c', .ok ()) →
    c'.length = c.length ∧
      ∀ i d : Nat, c'[i]? = some (some d) ↔ c[i]? = some (some d) ∨ t[i]? = some (some d)
  | [], [], _, c', h => by simp only [updateLoop, Prod.mk.injEq] at h; simp [← h.1]
  | none :: c, x :: t, hl, c', h => by
    rw [updateLoop] at h
    obtain ⟨rfl, h2⟩ := Prod.mk.inj h
    have ih := updateLoop_ok c t (by simpa using hl) (updateLoop c t).1 (Prod.ext rfl h2)
    refine ⟨by simp [ih.1], fun i d => ?_⟩
    cases i with
    | zero => simp
    | succ i => simpa using ih.2 i d
  | some d0 :: c, none :: t, hl, c', h => by
    rw [updateLoop] at h
    obtain ⟨rfl, h2⟩ := Prod.mk.inj h
    have ih := updateLoop_ok c t (by simpa using hl) (updateLoop c t).1 (Prod.ext rfl h2)
    refine ⟨by simp [ih.1], fun i d => ?_⟩
    cases i with
    | zero => simp
    | succ i => simpa using ih.2 i d
  | some d0 :: c, some d1 :: t, hl, c', h => by
    rw [updateLoop] at h
    by_cases hd : d1 = d0
    · rw [if_pos hd] at h
      obtain ⟨rfl, h2⟩ := Prod.mk.inj h
      have ih := updateLoop_ok c t (by simpa using hl) (updateLoop c t).1 (Prod.ext rfl h2)
      refine ⟨by simp [ih.1], fun i d => ?_⟩
      cases i with
      | zero => simp [hd]
      | succ i => simpa using ih.2 i d
    · rw [if_neg hd] at h; simp at h

theorem updateLoop_error : ∀ (c t : List (Option Nat)), c.length = t.length → ∀ c' e,
    updateLoop c t = (c', .error e) →
    e = .value ∧ ∃ i d d' : Nat, c[i]? = some (some d) ∧ t[i]? = some (some d') ∧ d ≠ d'
  | [], [], _, c', e, h => by simp [updateLoop] at h
  | none :: c, x :: t, hl, c', e, h => by
    rw [updateLoop] at h
    obtain ⟨-, h2⟩ := Prod.mk.inj h
    obtain ⟨h3, i, d, d', h4⟩ := updateLoop_error c t (by simpa using hl) _ e (Prod.ext rfl h2)
    exact ⟨h3, i + 1, d, d', by simpa using h4⟩
  | some d0 :: c, none :: t, hl, c', e, h => by
    rw [updateLoop] at h
    obtain ⟨-, h2⟩ := Prod.mk.inj h
    obtain ⟨h3, i, d, d', h4⟩ := updateLoop_error c t (by simpa using hl) _ e (Prod.ext rfl h2)
    exact ⟨h3, i + 1, d, d', by simpa using h4⟩
  | some d0 :: c, some d1 :: t, hl, c', e, h => by
    rw [updateLoop] at h
    by_cases hd : d1 = d0
    · rw [if_pos hd] at h
      obtain ⟨-, h2⟩ := Prod.mk.inj h
      obtain ⟨h3, i, d, d', h4⟩ := updateLoop_error c t (by simpa using hl) _ e (Prod.ext rfl h2)
      exact ⟨h3, i + 1, d, d', by simpa using h4⟩
    · rw [if_neg hd] at h
      simp only [Prod.mk.injEq, Except.error.injEq] at h
      exact ⟨h.2.symm, 0, d0, d1, by simp, by simp, fun h => hd h.symm⟩

theorem updateLoop_known : ∀ (c t : List (Option Nat)), none ∉ c → (updateLoop c t).1 = c
  | [], _, _ => by simp [updateLoop]
  | none :: _, _, h => by simp at h
  | some _ :: _, [], _ => by simp [updateLoop]
  | some d0 :: c, none :: t, h => by
    simp only [updateLoop, updateLoop_known c t (fun hm => h (List.mem_cons_of_mem _ hm))]
  | some d0 :: c, some d1 :: t, h => by
    rw [updateLoop]
    split
    · simp only [updateLoop_known c t (fun hm => h (List.mem_cons_of_mem _ hm))]
    · rfl

theorem IsMerge.compatible {ss : List (List (Option Nat))} {s : List (Option Nat)} (h : IsMerge ss s) :
    Compatible ss := by
  intro t ht t' ht'
  refine ⟨(h.1 t ht).trans (h.1 t' ht').symm, fun i d d' h1 h2 => ?_⟩
  have e1 := (h.2 i d).2 ⟨t, ht, h1⟩
  have e2 := (h.2 i d').2 ⟨t', ht', h2⟩
  rw [e1] at e2
  simpa using e2

theorem updateShape_ok {ss : List (List (Option Nat))} {c c' : Option (List (Option Nat))} {t : List (Option Nat)}
    (hc : MergeOf ss c) (h : (updateShape c (some t)).2 = .ok c') : MergeOf (ss ++ [t]) c' := by
  cases c with
  | none =>
    have hss : ss = [] := hc
    subst hss
    have h' : c' = some t := by simpa [updateShape] using h.symm
    subst h'
    exact ⟨by simp, by simp, by simp⟩
  | some s =>
    obtain ⟨hne, hm⟩ := hc
    rw [updateShape] at h
    by_cases hl : s.length = t.length
    · rw [if_pos hl] at h
      cases hu : updateLoop s t with
      | mk s' r =>
        rw [hu] at h
        cases r with
        | error e => simp at h
        | ok u =>
          have h' : c' = some s' := by simpa using h.symm
          subst h'
          obtain ⟨h1, h2⟩ := updateLoop_ok s t hl s' hu
          refine ⟨by simp, fun x hx => ?_, fun i d => ?_⟩
          · rcases List.mem_append.1 hx with hx | hx
            · rw [hm.1 x hx, h1]
            · rw [List.mem_singleton.1 hx, h1, hl]
          · rw [h2 i d, hm.2 i d]
            constructor
            · rintro (⟨x, hx, h⟩ | h)
              · exact ⟨x, List.mem_append_left _ hx, h⟩
              · exact ⟨t, by simp, h⟩
            · rintro ⟨x, hx, h⟩
              rcases List.mem_append.1 hx with hx | hx
              · exact Or.inl ⟨x, hx, h⟩
              · exact Or.inr (List.mem_singleton.1 hx ▸ h)
    · rw [if_neg hl] at h; simp at h

theorem updateShape_error {ss : List (List (Option Nat))} {c : Option (List (Option Nat))} {t : List (Option Nat)}
    {e : Err} (hc : MergeOf ss c) (h : (updateShape c (some t)).2 = .error e) :
    e = .value ∧ ¬ Compatible (ss ++ [t]) := by
  cases c with
  | none => simp [updateShape] at h
  | some s =>
    obtain ⟨hne, hm⟩ := hc
    rw [updateShape] at h
    by_cases hl : s.length = t.length
    · rw [if_pos hl] at h
      cases hu : updateLoop s t with
      | mk s' r =>
        rw [hu] at h
        cases r with
        | ok u => simp at h
        | error e' =>
          have h' : e' = e := by simpa using h
          subst h'
          obtain ⟨h1, i, d, d', h2, h3, h4⟩ := updateLoop_error s t hl s' e' hu
          refine ⟨h1, fun hcp => h4 ?_⟩
          obtain ⟨x, hx, hxd⟩ := (hm.2 i d).1 h2
          exact (hcp x (List.mem_append_left _ hx) t (by simp)).2 i d d' hxd h3
    · rw [if_neg hl] at h
      refine ⟨by simpa using h.symm, fun hcp => hl ?_⟩
      obtain ⟨x, hx⟩ := List.exists_mem_of_ne_nil _ hne
      rw [← hm.1 x hx]
      exact (hcp x (List.mem_append_left _ hx) t (by simp)).1

theorem Compatible.mono {ss ss' : List (List (Option Nat))} (h : Compatible ss') (hs : ∀ x ∈ ss, x ∈ ss') :
    Compatible ss := fun t ht t' ht' => h t (hs t ht) t' (hs t' ht')

theorem scan_spec : ∀ (ts : Dict Nm τ) (ss : List (List (Option Nat))) (c : Option (List (Option Nat))),
    MergeOf ss c →
    match scan ts c with
    | .ok c' => MergeOf (ss ++ shapesOf ts) c'
    | .error e => e = .value ∧ ¬ Compatible (ss ++ shapesOf ts)
  | [], ss, c, hc => by simpa [scan, shapesOf] using hc
  | (n, t) :: ts, ss, c, hc => by
    rw [scan]
    cases hs : HasShape.shape t with
    | none =>
      have h0 : shapesOf ((n, t) :: ts) = shapesOf ts := by simp [shapesOf, hs]
      have : updateShape c none = (c, .ok c) := by cases c <;> rfl
      rw [this, h0]
      exact scan_spec ts ss c hc
    | some sh =>
      have h0 : ss ++ shapesOf ((n, t) :: ts) = (ss ++ [sh]) ++ shapesOf ts := by simp [shapesOf, hs]
      rw [h0]
      cases hu : (updateShape c (some sh)).2 with
      | ok c' => exact scan_spec ts (ss ++ [sh]) c' (updateShape_ok hc hu)
      | error e =>
        obtain ⟨h1, h2⟩ := updateShape_error hc hu
        exact ⟨h1, fun h => h2 (Compatible.mono h fun x hx => List.mem_append_left _ hx)⟩

/-- The cache, if present, is right. -/
def Good (s : TSum τ) : Prop := ∀ c, s.cache = some c → MergeOf (shapesOf s.terms) c

theorem shapeProp_spec {s : TSum τ} (h : s.Good) :
    s.shapeProp.1.terms = s.terms ∧ s.shapeProp.1.Good ∧
    match s.shapeProp.2 with
    | .ok c => MergeOf (shapesOf s.terms) c ∧ s.shapeProp.1.cache = some c
    | .error e => e = .value ∧ ¬ Compatible (shapesOf s.terms) ∧ s.shapeProp.1 = s := by
  cases hc : s.cache with
  | some c =>
    have : s.shapeProp = (s, .ok c) := by rw [shapeProp, hc]
    rw [this]
    exact ⟨rfl, h, h c hc, hc⟩
  | none =>
    have hsc := scan_spec s.terms [] none (rfl : MergeOf [] none)
    cases hs : scan s.terms none with
    | ok c =>
      have : s.shapeProp = ({ s with cache := some c }, .ok c) := by rw [shapeProp, hc]; simp [hs]
      rw [hs] at hsc
      rw [this]
      refine ⟨rfl, fun c' hc' => ?_, by simpa using hsc, rfl⟩
      have : c' = c := by simpa using hc'.symm
      subst this
      simpa using hsc
    | error e =>
      have : s.shapeProp = (s, .error e) := by rw [shapeProp, hc]; simp [hs]
      rw [hs] at hsc
      rw [this]
      exact ⟨rfl, h, by simpa using hsc.1, by simpa using hsc.2, rfl⟩

/-- A call that cannot leave a wrong cache behind: not an edit behind the back of the sum, and if a term is
rejected because of its shape, then no dimension of the common shape is unknown. -/
def Harmless (s : TSum τ) : SumOp τ → Prop
  | .alter _ _ => False
  | .addTerm name ident t =>
    (s.step (.addTerm name ident t)).2 ≠ .error .value ∨
      ∀ sh, shapesOf s.terms ≠ [] → IsMerge (shapesOf s.terms) sh → none ∉ sh
  | _ => True

/-- Every call of the history is harmless in the state it is made in. -/
def HarmlessRun : TSum τ → List (SumOp τ) → Prop
  | _, [] => True
  | s, op :: ops => s.Harmless op ∧ HarmlessRun (s.step op).1 ops

theorem set_fresh {ts : Dict Nm τ} {n : Nm} (h : ts.has n = false) (t : τ) : ts.set n t = ts ++ [(n, t)] := by
  induction ts with
  | nil => rfl
  | cons p ts ih =>
    obtain ⟨k, v⟩ := p
    rw [Dict.has_eq_false] at h
    have hk : k ≠ n := fun e => h (by simp [Dict.keys, e])
    have : Dict.has ts n = false := Dict.has_eq_false.2 fun hm => h (List.mem_cons_of_mem _ hm)
    rw [Dict.set, if_neg hk, ih this]; rfl

theorem addTerm_good {s : TSum τ} (h : s.Good) (name : Option Nm) (ident : Nm) (t : τ)
    (hh : s.Harmless (.addTerm name ident t)) : (s.addTerm name ident t).1.Good := by
  by_cases hk : s.terms.has (name.getD ident) = true
  · rw [addTerm, if_pos hk]; exact h
  · have hk' : s.terms.has (name.getD ident) = false := by simpa using hk
    cases hs : HasShape.shape t with
    | none =>
      rw [addTerm, if_neg hk]
      simp only [hs]
      intro c hc
      have := h c hc
      rw [set_fresh hk']
      simpa [shapesOf, hs] using this
    | some sh =>
      obtain ⟨h1, h2, h3⟩ := shapeProp_spec h
      have hkt : ∀ r, s.shapeProp = r → r.1.terms = s.terms := fun r hr => hr ▸ h1
      cases hp : s.shapeProp with
      | mk s1 r =>
        rw [hp] at h1 h2 h3
        have h1' : s1.terms = s.terms := h1
        cases r with
        | error e =>
          rw [addTerm, if_neg hk]; simp only [hs, hp]; exact h2
        | ok c =>
          have hm : MergeOf (shapesOf s.terms) c := h3.1
          have hcache : s1.cache = some c := h3.2
          cases hu : updateShape c (some sh) with
          | mk c1 r =>
            cases r with
            | ok c' =>
              have hr : s.addTerm name ident t =
                  ({ terms := s1.terms.set (name.getD ident) t, cache := some c' }, .ok (name.getD ident)) := by
                rw [addTerm, if_neg hk]; simp only [hs, hp, hu]
              rw [hr]
              intro x hx
              have : c' = x := by simpa using hx
              subst this
              have := updateShape_ok hm (by rw [hu] : (updateShape c (some sh)).2 = .ok c')
              have h4 : s1.terms.set (name.getD ident) t = s.terms ++ [(name.getD ident, t)] := by
                rw [h1', set_fresh hk']
              show MergeOf (shapesOf (s1.terms.set (name.getD ident) t)) c'
              rw [h4]
              simpa [shapesOf, hs] using this
            | error e =>
              have hr : s.addTerm name ident t = ({ s1 with cache := some c1 }, .error e) := by
                rw [addTerm, if_neg hk]; simp only [hs, hp, hu]
              have he := (updateShape_error hm (by rw [hu] : (updateShape c (some sh)).2 = .error e)).1
              rcases hh with hh | hh
              · exfalso
                apply hh
                simp only [step, hr, he]; rfl
              · rw [hr]
                intro x hx
                have : c1 = x := by simpa using hx
                subst this
                show MergeOf (shapesOf s1.terms) c1
                rw [h1']
                cases c with
                | none => simp [updateShape] at hu
                | some c0 =>
                  have hkn := updateLoop_known c0 sh (hh c0 hm.1 hm.2)
                  have : c1 = some c0 := by
                    rw [updateShape] at hu
                    split at hu
                    · split at hu
                      · simp at hu
                      · rename_i c'' _ hl
                        rw [hl] at hkn
                        rw [← (Prod.mk.inj hu).1]; simpa using hkn
                    · exact (Prod.mk.inj hu).1.symm
                  rw [this]; exact hm

theorem step_good {s : TSum τ} (h : s.Good) (op : SumOp τ) (hh : s.Harmless op) : (s.step op).1.Good := by
  cases op with
  | addTerm name ident t => exact addTerm_good h name ident t hh
  | updateTerm n t =>
    rw [step, updateTerm]; dsimp only
    split
    · intro c hc; simp at hc
    · exact h
  | removeTerm n =>
    rw [step, removeTerm]; dsimp only
    split
    · intro c hc; simp at hc
    · exact h
  | shape => exact (shapeProp_spec h).2.1
  | isValid =>
    have := (shapeProp_spec h).2.1
    rw [step, isValid]
    dsimp only
    cases hp : s.shapeProp with
    | mk s1 r => rw [hp] at this; cases r <;> exact this
  | alter n t => exact hh.elim

theorem run_good : ∀ (ops : List (SumOp τ)) (s : TSum τ), s.Good → s.HarmlessRun ops → (s.run ops).Good
  | [], _, h, _ => h
  | op :: ops, s, h, hh => run_good ops _ (step_good h op hh.1) hh.2

/-- C23: after any history of harmless calls on a new sum (rejected calls included), the reported shape is
the merge of the shapes of the current terms: unknown if no term has a known shape, an error exactly if the
shapes contradict each other.  Missing: calls that are not harmless, see `c23_rejected_violated` and
`c23_alter_violated`. -/
theorem c23_shape_partial (ops : List (SumOp τ)) (hh : ({} : TSum τ).HarmlessRun ops) :
    let s := ({} : TSum τ).run ops
    let ss := s.terms.filterMap fun p => HasShape.shape p.2
    match s.shapeProp.2 with
    | .ok none => ss = []
    | .ok (some sh) => ss ≠ [] ∧ IsMerge ss sh
    | .error e => e = .value ∧ ¬ Compatible ss := by
  intro s _
  have hg : s.Good := run_good ops {} (fun c hc => by simp at hc) hh
  have := (shapeProp_spec hg).2.2
  cases hp : s.shapeProp.2 with
  | error e => rw [hp] at this; exact ⟨this.1, this.2.1⟩
  | ok c =>
    rw [hp] at this
    cases c with
    | none => exact this.1
    | some sh => exact this.1

/-- C23: if every term ever added or put has a fully known shape (arrays do), every history without edits
behind the back of the sum is harmless, rejections included. -/
theorem c23_arrays (ops : List (SumOp τ))
    (hno : ∀ n t, SumOp.alter n t ∉ ops)
    (hadd : ∀ name ident t, SumOp.addTerm name ident t ∈ ops → ∀ sh, HasShape.shape t = some sh → none ∉ sh)
    (hupd : ∀ n t, SumOp.updateTerm n t ∈ ops → ∀ sh, HasShape.shape t = some sh → none ∉ sh) :
    ({} : TSum τ).HarmlessRun ops := by
  suffices H : ∀ (ops : List (SumOp τ)) (s : TSum τ),
      (∀ n t, SumOp.alter n t ∉ ops) →
      (∀ name ident t, SumOp.addTerm name ident t ∈ ops → ∀ sh, HasShape.shape t = some sh → none ∉ sh) →
      (∀ n t, SumOp.updateTerm n t ∈ ops → ∀ sh, HasShape.shape t = some sh → none ∉ sh) →
      (∀ p ∈ s.terms, ∀ sh, HasShape.shape p.2 = some sh → none ∉ sh) → s.HarmlessRun ops from
    H ops {} hno hadd hupd (by simp)
  intro ops
  induction ops with
  | nil => intros; trivial
  | cons op ops ih =>
    intro s hno hadd hupd hs
    have hset : ∀ (ts : Dict Nm τ) (n : Nm) (t : τ), (∀ sh, HasShape.shape t = some sh → none ∉ sh) →
        (∀ p ∈ ts, ∀ sh, HasShape.shape p.2 = some sh → none ∉ sh) →
        ∀ p ∈ ts.set n t, ∀ sh, HasShape.shape p.2 = some sh → none ∉ sh := by
      intro ts n t ht
      induction ts with
      | nil => intro _ p hp; simp only [Dict.set, List.mem_singleton] at hp; subst hp; exact ht
      | cons q ts ih =>
        intro h p hp
        obtain ⟨k, v⟩ := q
        rw [Dict.set] at hp
        split at hp
        · rcases List.mem_cons.1 hp with hp | hp
          · subst hp; exact ht
          · exact h p (List.mem_cons_of_mem _ hp)
        · rcases List.mem_cons.1 hp with hp | hp
          · subst hp; exact h _ List.mem_cons_self
          · exact ih (fun p hp => h p (List.mem_cons_of_mem _ hp)) p hp
    have hsp : s.shapeProp.1.terms = s.terms := by
      rw [shapeProp]
      split
      · rfl
      · split <;> rfl
    have hterms : ∀ p ∈ (s.step op).1.terms, ∀ sh, HasShape.shape p.2 = some sh → none ∉ sh := by
      cases op with
      | alter n t => exact absurd List.mem_cons_self (hno n t)
      | addTerm name ident t =>
        have ht := hadd name ident t List.mem_cons_self
        show ∀ p ∈ (s.addTerm name ident t).1.terms, _
        rw [addTerm]
        split
        · exact hs
        · split
          · exact hset _ _ _ ht hs
          · split
            · rename_i hp
              rw [hp] at hsp
              have hsp' : _ = s.terms := hsp
              rw [hsp']; exact hs
            · rename_i hp
              rw [hp] at hsp
              have hsp' : _ = s.terms := hsp
              split
              · dsimp only; rw [hsp']; exact hset _ _ _ ht hs
              · dsimp only; rw [hsp']; exact hs
      | updateTerm n t =>
        have ht := hupd n t List.mem_cons_self
        show ∀ p ∈ (s.updateTerm n t).1.terms, _
        rw [updateTerm]
        split
        · exact hset _ _ _ ht hs
        · exact hs
      | removeTerm n =>
        show ∀ p ∈ (s.removeTerm n).1.terms, _
        rw [removeTerm]
        split
        · intro p hp; exact hs p (List.mem_of_mem_filter hp)
        · exact hs
      | shape => show ∀ p ∈ s.shapeProp.1.terms, _; rw [hsp]; exact hs
      | isValid =>
        show ∀ p ∈ s.isValid.1.terms, _
        rw [isValid]
        split <;> (rename_i hp; rw [hp] at hsp; have hsp' : _ = s.terms := hsp; rw [hsp']; exact hs)
    refine ⟨?_, ih _ (fun n t h => hno n t (List.mem_cons_of_mem _ h))
      (fun a b c h => hadd a b c (List.mem_cons_of_mem _ h))
      (fun a b h => hupd a b (List.mem_cons_of_mem _ h)) hterms⟩
    cases op with
    | alter n t => exact absurd List.mem_cons_self (hno n t)
    | addTerm name ident t =>
      refine Or.inr fun sh hss hm hn => ?_
      obtain ⟨i, hi, hn⟩ := List.getElem_of_mem hn
      obtain ⟨x, hx⟩ := List.exists_mem_of_ne_nil _ hss
      have hl : i < x.length := by rw [hm.1 x hx]; exact hi
      obtain ⟨p, hp, hpx⟩ := List.mem_filterMap.1 hx
      have hno := hs p hp x hpx
      cases hxi : x[i] with
      | none => exact hno (hxi ▸ List.getElem_mem hl)
      | some d =>
        have := (hm.2 i d).2 ⟨x, hx, by rw [List.getElem?_eq_getElem hl, hxi]⟩
        rw [List.getElem?_eq_getElem hi, hn] at this
        simp at this
    | _ => trivial

/-- A history with a rejected term (wrong rank, wrong dimension), a replaced and a removed term. -/
def sumExample : List (SumOp Shp) :=
  [.addTerm none (.int 0) (shp [2, 3]), .addTerm (some (.str "b")) (.int 1) none, .shape,
    .addTerm none (.int 2) (shp [2, 4]), .addTerm none (.int 3) (shp [2]), .addTerm none (.int 0) (shp [2, 3]),
    .updateTerm (.int 0) (shp [5]), .shape, .updateTerm (.str "b") (shp [7]), .isValid, .removeTerm (.int 0)]

example : ({} : TSum Shp).HarmlessRun sumExample ∧ (({} : TSum Shp).run sumExample).terms = [(.str "b", shp [7])] ∧
    (({} : TSum Shp).run sumExample).shapeProp.2 = .ok (some [some 7]) :=
  ⟨c23_arrays sumExample (by simp [sumExample])
    (by
      intro name ident t h sh hs
      simp only [sumExample, shp, List.mem_cons, reduceCtorEq, SumOp.addTerm.injEq, false_or, or_false,
        List.not_mem_nil] at h
      rcases h with h | h | h | h | h <;> obtain ⟨-, -, rfl⟩ := h <;> cases hs <;> simp)
    (by
      intro n t h sh hs
      simp only [sumExample, shp, List.mem_cons, reduceCtorEq, SumOp.updateTerm.injEq, false_or, or_false,
        List.not_mem_nil] at h
      rcases h with h | h <;> obtain ⟨-, rfl⟩ := h <;> cases hs <;> simp), by decide, by rfl⟩

/-- C23 does not hold for all histories: a term with an unknown dimension (a network with an open edge of
unknown dimension), then a rejected term.  The rejection has filled in the unknown dimension of the cached
shape, and the sum goes on reporting it. -/
theorem c23_rejected_violated :
    let ops : List (SumOp Shp) := [.addTerm none (.int 0) (some [none, some 2]), .addTerm none (.int 1) (shp [3, 4])]
    let s := ({} : TSum Shp).run ops
    s.terms = [(.int 0, some [none, some 2])] ∧ s.shapeProp.2 = .ok (some [some 3, some 2]) ∧
      ¬ IsMerge (s.terms.filterMap fun p => HasShape.shape p.2) [some 3, some 2] := by
  refine ⟨by decide, rfl, fun h => ?_⟩
  have h0 := (h.2 0 3).1 rfl
  have hs : ((({} : TSum Shp).run [.addTerm none (.int 0) (some [none, some 2]),
    .addTerm none (.int 1) (shp [3, 4])]).terms.filterMap fun p => HasShape.shape p.2) = [[none, some 2]] := by
    decide
  rw [hs] at h0
  simp at h0

/-- C23 does not hold if a term is edited after it has been added: the cached shape is kept. -/
theorem c23_alter_violated :
    let ops : List (SumOp Shp) := [.addTerm none (.int 0) (shp [2]), .alter (.int 0) (shp [2, 3])]
    let s := ({} : TSum Shp).run ops
    s.terms = [(.int 0, shp [2, 3])] ∧ s.shapeProp.2 = .ok (some [some 2]) ∧
      ¬ IsMerge (s.terms.filterMap fun p => HasShape.shape p.2) [some 2] := by
  refine ⟨by decide, rfl, fun h => ?_⟩
  have h0 := h.1 [some 2, some 3] (by decide)
  simp at h0

end TSum

end Verif
