import Verif.Spec.Order
import Verif.Model.Orders
import Verif.Lemmas.Path
import Verif.Lemmas.Contract
import Mathlib.Data.List.Nodup
import Mathlib.Data.List.Perm.Lattice
/-!
# Lemmas about contraction orders
-/

namespace Verif

/-! ## Running part of an order -/

/-- The steps `o` can be carried out on the tensors `ns` and leave the tensors `ns'`. -/
inductive Runs : List Nm → List (List Nm × Nm) → List Nm → Prop
  | nil {ns ns' : List Nm} : ns.Perm ns' → Runs ns [] ns'
  | cons {ns xs rest ns' : List Nm} {z : Nm} {o : List (List Nm × Nm)} :
      ns.Perm (xs ++ rest) → xs ≠ [] → z ∉ rest → Runs (z :: rest) o ns' → Runs ns ((xs, z) :: o) ns'

theorem Runs.permL {ns ms ns' : List Nm} {o : List (List Nm × Nm)} (h : Runs ns o ns') (hp : ns.Perm ms) : Runs ms o ns' := by
  cases h with
  | nil h => exact .nil (hp.symm.trans h)
  | cons h1 h2 h3 h4 => exact .cons (hp.symm.trans h1) h2 h3 h4

theorem Runs.permR {ns ns' ms : List Nm} {o : List (List Nm × Nm)} (h : Runs ns o ns') (hp : ns'.Perm ms) : Runs ns o ms := by
  induction h with
  | nil h => exact .nil (h.trans hp)
  | cons h1 h2 h3 _ ih => exact .cons h1 h2 h3 (ih hp)

theorem Runs.append {a b c : List Nm} {o p : List (List Nm × Nm)} (h : Runs a o b) (h' : Runs b p c) : Runs a (o ++ p) c := by
  induction h with
  | nil h => exact h'.permL h.symm
  | cons h1 h2 h3 _ ih => exact .cons h1 h2 h3 (ih h')

theorem Runs.split {a c : List Nm} {o p : List (List Nm × Nm)} (h : Runs a (o ++ p) c) : ∃ b, Runs a o b ∧ Runs b p c := by
  induction o generalizing a with
  | nil => exact ⟨a, .nil (List.Perm.refl _), h⟩
  | cons s o ih =>
    cases h with
    | cons h1 h2 h3 h4 =>
      obtain ⟨b, h5, h6⟩ := ih h4
      exact ⟨b, .cons h1 h2 h3 h5, h6⟩

theorem validOrder_iff {ns : List Nm} {o : List (List Nm × Nm)} {last : Nm} : ValidOrder ns o last ↔ Runs ns o [last] := by
  constructor
  · intro h
    induction h with
    | done z => exact .nil (List.Perm.refl _)
    | step h1 h2 h3 _ ih => exact .cons h1 h2 h3 ih
  · intro h
    generalize hm : [last] = m at h
    induction h with
    | nil h => subst hm; rw [List.perm_singleton.1 h]; exact .done _
    | cons h1 h2 h3 _ ih => exact .step h1 h2 h3 (ih hm)

/-- Everything consumed and left over is what was there and what was produced. -/
theorem Runs.balance {ns ns' : List Nm} {o : List (List Nm × Nm)} (h : Runs ns o ns') :
    (o.flatMap (·.1) ++ ns').Perm (ns ++ o.map (·.2)) := by
  induction h with
  | nil h => simpa using h.symm
  | @cons ns xs rest ns' z o h1 h2 h3 _ ih =>
    rw [List.flatMap_cons, List.map_cons, List.append_assoc]
    refine (List.Perm.append_left xs ih).trans ?_
    have : (xs ++ (z :: rest ++ o.map (·.2))).Perm ((xs ++ rest) ++ (z :: o.map (·.2))) := by
      rw [List.append_assoc]
      refine List.Perm.append_left xs ?_
      rw [List.cons_append]
      exact List.perm_middle.symm
    exact this.trans (List.Perm.append_right _ h1.symm)

theorem Runs.ops_nodup {ns ns' : List Nm} {o : List (List Nm × Nm)} (h : Runs ns o ns') (hs : SingleAssignment ns o) :
    (o.flatMap (·.1) ++ ns').Nodup := h.balance.nodup_iff.2 hs

theorem ValidOrder.live_used {ns : List Nm} {o : List (List Nm × Nm)} {last : Nm} (h : ValidOrder ns o last) (hne : o ≠ []) :
    ∀ x ∈ ns, x ∈ o.flatMap (·.1) := by
  induction h with
  | done => exact absurd rfl hne
  | @step ns xs rest z last o h1 h2 h3 h4 ih =>
    intro x hx
    rw [List.flatMap_cons, List.mem_append]
    rcases List.mem_append.1 (h1.subset hx) with h | h
    · exact Or.inl h
    · refine Or.inr (ih ?_ x (List.mem_cons_of_mem _ h))
      rintro rfl
      cases h4
      simp at h

/-! ## Positions in a list -/

theorem eraseIdx_two_perm {l : List Nm} {i j : Nat} {x y : Nm} (hi : l[i]? = some x) (hj : l[j]? = some y) (hij : i ≠ j) :
    l.Perm ([x, y] ++ (l.eraseIdx (max i j)).eraseIdx (min i j)) := by
  have key : ∀ {i j : Nat} {x y : Nm}, l[i]? = some x → l[j]? = some y → i < j →
      l.Perm (x :: y :: (l.eraseIdx j).eraseIdx i) := by
    intro i j x y hi hj hij
    obtain ⟨hj1, hj2⟩ := List.getElem?_eq_some_iff.1 hj
    have h1 := List.getElem_cons_eraseIdx_perm hj1
    have hi' : (l.eraseIdx j)[i]? = some x := by rw [List.getElem?_eraseIdx_of_lt hij, hi]
    obtain ⟨hi1, hi2⟩ := List.getElem?_eq_some_iff.1 hi'
    have h2 := List.getElem_cons_eraseIdx_perm hi1
    rw [hj2] at h1
    rw [hi2] at h2
    exact h1.symm.trans ((List.Perm.cons y h2.symm).trans (List.Perm.swap _ _ _))
  rcases Nat.lt_or_gt_of_ne hij with h | h
  · rw [max_eq_right h.le, min_eq_left h.le]
    exact key hi hj h
  · rw [max_eq_left h.le, min_eq_right h.le]
    exact (key hj hi h).trans (List.Perm.swap _ _ _)

/-! ## Fresh names -/

theorem hashNum_freshName (k : Int) : hashNum (freshName k) = k + 1 := rfl

theorem freshName_inj {j k : Int} (h : freshName j = freshName k) : j = k := by
  have := congrArg hashNum h
  rw [hashNum_freshName, hashNum_freshName] at this
  omega

theorem foldl_max_ge (l : List Nm) (k : Int) :
    k ≤ l.foldl (fun k x => max k (hashNum x)) k ∧ ∀ x ∈ l, hashNum x ≤ l.foldl (fun k x => max k (hashNum x)) k := by
  induction l generalizing k with
  | nil => simp
  | cons a l ih =>
    rw [List.foldl_cons]
    obtain ⟨h1, h2⟩ := ih (max k (hashNum a))
    refine ⟨(le_max_left _ _).trans h1, fun x hx => ?_⟩
    rcases List.mem_cons.1 hx with rfl | hx
    · exact (le_max_right _ _).trans h1
    · exact h2 x hx

theorem counterStart_fresh {o : List OrderStep} {x : Nm} (hx : x ∈ o.flatMap (·.1)) {j : Int} (hj : counterStart o ≤ j) :
    freshName j ≠ x := by
  intro h
  have := (foldl_max_ge (o.flatMap (·.1)) 0).2 x hx
  rw [← h, hashNum_freshName] at this
  unfold counterStart at hj
  omega

/-! ## Paths -/

theorem setLastName_append (rhs : Nm) (init : List OrderStep) (s : OrderStep) :
    setLastName rhs (init ++ [s]) = some (init ++ [(s.1, rhs)]) := by
  induction init with
  | nil => rfl
  | cons a init ih =>
    cases init with
    | nil => rfl
    | cons b init => rw [List.cons_append, List.cons_append, setLastName, ← List.cons_append, ih]; rfl

/-- Names `('#', k+1), …, ('#', k+n)`. -/
def freshNames (k : Int) (n : Nat) : List Nm := (List.range n).map fun i : Nat => freshName (k + (i : Int))

theorem freshNames_succ (k : Int) (n : Nat) : freshNames k (n + 1) = freshName k :: freshNames (k + 1) n := by
  unfold freshNames
  rw [List.range_succ_eq_map, List.map_cons, List.map_map]
  congr 1
  · simp
  · apply List.map_congr_left
    intro i _
    simp only [Function.comp]
    congr 1
    push_cast
    omega

theorem mem_freshNames {k : Int} {n : Nat} {x : Nm} (h : x ∈ freshNames k n) : ∃ j, k ≤ j ∧ j < k + n ∧ x = freshName j := by
  unfold freshNames at h
  obtain ⟨i, hi, rfl⟩ := List.mem_map.1 h
  rw [List.mem_range] at hi
  exact ⟨k + i, by omega, by omega, rfl⟩

theorem freshNames_nodup (k : Int) (n : Nat) : (freshNames k n).Nodup := by
  unfold freshNames
  refine List.Nodup.map (fun a b h => ?_) List.nodup_range
  have := freshName_inj h
  omega

theorem pairLoop_spec (rhs : Nm) {n : Nat} {path : List (List Nat)} (hv : ValidPath n path) (hne : path ≠ []) :
    ∀ (lhs : List Nm) (acc : List OrderStep) (k : Int), lhs.length = n →
    ∃ (init : List OrderStep) (xs : List Nm) (w : Nm) (k' : Int),
      pairLoop rhs path lhs acc k = some (acc ++ init ++ [(xs, w)], k') ∧ xs ≠ [] ∧ xs.length ≤ 2 ∧
      (∀ rest, (∀ j, k ≤ j → freshName j ∉ lhs ++ rest) → Runs (lhs ++ rest) init (xs ++ rest)) ∧
      init.map (·.2) = freshNames k init.length ∧ k + init.length ≤ k' ∧ Pairwise2 init ∧
      ((∀ p ∈ path, p.length = 2) → xs.length = 2) := by
  induction hv with
  | done => exact absurd rfl hne
  | @one n i p hi hp ih =>
    intro lhs acc k hl
    have hx : lhs[i]? = some (lhs[i]'(by omega)) := List.getElem?_eq_getElem (by omega)
    generalize lhs[i]'(by omega) = x at hx
    by_cases hpe : p = []
    · subst hpe
      cases hp
      obtain rfl : i = 0 := by omega
      obtain ⟨a, rfl⟩ := List.length_eq_one_iff.1 hl
      simp only [List.getElem?_cons_zero, Option.some.injEq] at hx
      subst hx
      refine ⟨[], [a], rhs, k, by simp [pairLoop], by simp, by simp, fun rest _ => .nil (List.Perm.refl _), rfl, by simp,
        by intro s hs; simp at hs, fun h => by simpa using h [0] (by simp)⟩
    · have hlen : (lhs.eraseIdx i ++ [x]).length = n := by
        rw [List.length_append, List.length_eraseIdx_of_lt (by omega), List.length_singleton]; omega
      obtain ⟨init, xs, w, k', h1, h2, h2', h3, h4, h5, h6, h7⟩ := ih hpe (lhs.eraseIdx i ++ [x]) acc k hlen
      have hperm : (lhs.eraseIdx i ++ [x]).Perm lhs := by
        obtain ⟨hi1, hi2⟩ := List.getElem?_eq_some_iff.1 hx
        have := List.getElem_cons_eraseIdx_perm hi1
        rw [hi2] at this
        exact List.perm_append_singleton _ _ |>.trans this
      refine ⟨init, xs, w, k', ?_, h2, h2', fun rest hf => ?_, h4, h5, h6, fun h => by simpa using h [i] (by simp)⟩
      · rw [pairLoop, hx]
        dsimp only
        rw [if_neg (by simpa using hpe), h1]
      · refine (h3 rest fun j hj hm => hf j hj ?_).permL (hperm.append_right rest)
        exact (hperm.append_right rest).subset hm
  | @two n i j p hi hj hij hp ih =>
    intro lhs acc k hl
    have hx : lhs[i]? = some (lhs[i]'(by omega)) := List.getElem?_eq_getElem (by omega)
    generalize lhs[i]'(by omega) = x at hx
    have hy : lhs[j]? = some (lhs[j]'(by omega)) := List.getElem?_eq_getElem (by omega)
    generalize lhs[j]'(by omega) = y at hy
    have hperm := eraseIdx_two_perm hx hy hij
    generalize hr : (lhs.eraseIdx (max i j)).eraseIdx (min i j) = r at hperm
    have hrl : r.length + 2 = n + 1 := by
      have := hperm.length_eq
      simp at this
      omega
    by_cases hpe : p = []
    · subst hpe
      cases hp
      obtain rfl : r = [] := List.length_eq_zero_iff.1 (by omega)
      refine ⟨[], [x, y], freshName k, k + 1, ?_, by simp, by simp, fun rest _ => .nil (hperm.append_right rest), rfl, by simp,
        by intro s hs; simp at hs, fun _ => rfl⟩
      rw [pairLoop, hx, hy]
      simp [pairLoop]
    · obtain ⟨init, xs, w, k', h1, h2, h2', h3, h4, h5, h6, h7⟩ := ih hpe (r ++ [freshName k]) (acc ++ [([x, y], freshName k)])
        (k + 1) (by simp; omega)
      refine ⟨([x, y], freshName k) :: init, xs, w, k', ?_, h2, h2', fun rest hf => ?_, ?_, ?_, ?_, fun h => h7 fun q hq => h q (by simp [hq])⟩
      · rw [pairLoop, hx, hy]
        dsimp only
        rw [hr, h1]
        simp
      · have hin : ∀ a, a ∈ r ++ rest → a ∈ lhs ++ rest := fun a ha => by
          rw [List.mem_append] at ha ⊢
          exact ha.imp (fun h => hperm.symm.subset (by simp [h])) id
        refine .cons (xs := [x, y]) (rest := r ++ rest) ?_ (by simp) (fun h => hf k le_rfl (hin _ h)) ?_
        · rw [← List.append_assoc]; exact hperm.append_right rest
        · refine (h3 rest fun j hj hm => ?_).permL ?_
          · rw [List.append_assoc, List.mem_append, List.mem_append, List.mem_singleton] at hm
            rcases hm with hm | hm | hm
            · exact hf j (by omega) (hin _ (List.mem_append_left _ hm))
            · have := freshName_inj hm; omega
            · exact hf j (by omega) (List.mem_append_right _ hm)
          · rw [List.append_assoc]; exact List.perm_middle
      · rw [List.map_cons, List.length_cons, freshNames_succ, h4]
      · rw [List.length_cons]; push_cast; omega
      · intro s hs
        rcases List.mem_cons.1 hs with rfl | hs
        · rfl
        · exact h6 s hs

theorem pathToPaired_spec {s : OrderStep} {path : List (List Nat)} (hv : ValidPath s.1.length path) (hne : path ≠ []) (k : Int) :
    ∃ (init : List OrderStep) (xs : List Nm) (k' : Int),
      pathToPaired s path k = some (init ++ [(xs, s.2)], k') ∧ xs ≠ [] ∧ xs.length ≤ 2 ∧
      (∀ rest, (∀ j, k ≤ j → freshName j ∉ s.1 ++ rest) → Runs (s.1 ++ rest) init (xs ++ rest)) ∧
      init.map (·.2) = freshNames k init.length ∧ k + init.length ≤ k' ∧ Pairwise2 init ∧
      ((∀ p ∈ path, p.length = 2) → xs.length = 2) := by
  obtain ⟨init, xs, w, k', h1, h2, h2', h3, h4, h5, h6, h7⟩ := pairLoop_spec s.2 hv hne s.1 [] k rfl
  refine ⟨init, xs, k', ?_, h2, h2', h3, h4, h5, h6, h7⟩
  unfold pathToPaired
  rw [h1, List.nil_append]
  dsimp only
  rw [setLastName_append]
  rfl

/-- What resolving does to a valid order, from any counter that is past the operand names. -/
theorem resolveLoop_spec {path : OrderStep → List (List Nat)} {ns : List Nm} {o : List OrderStep} {last : Nm}
    (h : ValidOrder ns o last) (hv : ∀ s ∈ o, ValidPath s.1.length (path s) ∧ path s ≠ []) :
    ∀ (k : Int), (∀ x ∈ o.flatMap (·.1), ∀ j, k ≤ j → freshName j ≠ x) →
    ∃ (o' : List OrderStep) (js : List Int), resolveLoop path o k = some o' ∧ ValidOrder ns o' last ∧
      (∀ s ∈ o', s.1.length ≤ 2) ∧ ((∀ s ∈ o, ∀ p ∈ path s, p.length = 2) → Pairwise2 o') ∧ js.Nodup ∧ (∀ j ∈ js, k ≤ j) ∧
      (o'.map (·.2)).Perm (o.map (·.2) ++ js.map freshName) ∧ (o ≠ [] → o' ≠ []) := by
  induction h with
  | done z =>
    intro k _
    exact ⟨[], [], rfl, .done _, by simp, by simp [Pairwise2], by simp, by simp, by simp, by simp⟩
  | @step ns xs rest z last o h1 h2 h3 h4 ih =>
    intro k hk
    obtain ⟨hv1, hv2⟩ := hv (xs, z) (by simp)
    obtain ⟨init, ys, k', e1, e2, e2', e3, e4, e5, e6, e7⟩ := pathToPaired_spec hv1 hv2 k
    obtain ⟨o', js, f1, f2, f3, f3', f4, f5, f6, _⟩ := ih (fun s hs => hv s (by simp [hs])) k' (fun x hx j hj => hk x (by
      rw [List.flatMap_cons]; exact List.mem_append_right _ hx) j (by omega))
    have hlive : ∀ x ∈ xs ++ rest, x ∈ ((xs, z) :: o).flatMap (·.1) := fun x hx =>
      (ValidOrder.step h1 h2 h3 h4).live_used (by simp) x (h1.symm.subset hx)
    refine ⟨init ++ [(ys, z)] ++ o', (List.range init.length).map (fun i : Nat => k + (i : Int)) ++ js, ?_, ?_, ?_, ?_, ?_, ?_, ?_, by simp⟩
    · rw [resolveLoop, e1]
      dsimp only
      rw [f1]
      rfl
    · rw [validOrder_iff] at f2 ⊢
      refine Runs.append (Runs.append ((e3 rest fun j hj hm => hk _ (hlive _ hm) j hj rfl).permL h1.symm)
        (.cons (List.Perm.refl _) e2 h3 (.nil (List.Perm.refl _)))) f2
    · intro s hs
      rw [List.append_assoc, List.mem_append, List.mem_append, List.mem_singleton] at hs
      rcases hs with hs | rfl | hs
      · exact (e6 s hs).le
      · exact e2'
      · exact f3 s hs
    · intro hp s hs
      rw [List.append_assoc, List.mem_append, List.mem_append, List.mem_singleton] at hs
      rcases hs with hs | rfl | hs
      · exact e6 s hs
      · exact e7 (hp _ (by simp))
      · exact f3' (fun s hs => hp s (by simp [hs])) s hs
    · refine List.Nodup.append (List.Nodup.map (fun a b hab => by simpa using hab) List.nodup_range) f4 ?_
      intro j hj hj'
      obtain ⟨i, hi, rfl⟩ := List.mem_map.1 hj
      rw [List.mem_range] at hi
      have := f5 _ hj'
      omega
    · intro j hj
      rcases List.mem_append.1 hj with hj | hj
      · obtain ⟨i, hi, rfl⟩ := List.mem_map.1 hj
        omega
      · have := f5 j hj
        omega
    · have e4' : init.map (·.2) = ((List.range init.length).map (fun i : Nat => k + (i : Int))).map freshName := by
        rw [e4, List.map_map]; rfl
      rw [List.map_append, List.map_append, List.map_append, e4', List.map_cons, List.map_cons, List.map_nil]
      generalize List.map freshName (List.map (fun i : Nat => k + (i : Int)) (List.range init.length)) = A
      have : (A ++ [z] ++ o'.map (·.2)).Perm (A ++ [z] ++ (o.map (·.2) ++ js.map freshName)) := f6.append_left _
      refine this.trans ?_
      generalize o.map (·.2) = B
      generalize js.map freshName = C
      rw [List.append_assoc, List.singleton_append]
      refine List.perm_middle.trans ?_
      rw [List.cons_append]
      refine List.Perm.cons z ?_
      rw [← List.append_assoc, ← List.append_assoc]
      exact List.Perm.append_right C List.perm_append_comm

/-! ## Moving steps about -/

theorem nodup_flatMap_cons {s : OrderStep} {o : List OrderStep} {l : List Nm} (h : ((s :: o).flatMap (·.1) ++ l).Nodup) :
    s.1.Nodup ∧ (∀ x ∈ s.1, x ∉ o.flatMap (·.1)) ∧ (o.flatMap (·.1) ++ l).Nodup := by
  rw [List.flatMap_cons, List.append_assoc, List.nodup_append'] at h
  exact ⟨h.1, fun x hx hx' => h.2.2 hx (List.mem_append_left _ hx'), h.2.1⟩

theorem SingleAssignment.tail {ns xs rest : List Nm} {z : Nm} {o : List OrderStep} (h : SingleAssignment ns ((xs, z) :: o))
    (hp : ns.Perm (xs ++ rest)) : SingleAssignment (z :: rest) o := by
  unfold SingleAssignment at *
  rw [List.map_cons] at h
  have h2 : (xs ++ (rest ++ z :: o.map (·.2))).Nodup := by
    rw [← List.append_assoc]
    exact (hp.append_right _).nodup_iff.1 h
  have h3 := (List.nodup_append'.1 h2).2.1
  rw [List.cons_append]
  exact List.perm_middle.nodup_iff.1 h3

theorem SingleAssignment.fresh {ns xs : List Nm} {z : Nm} {o : List OrderStep} (h : SingleAssignment ns ((xs, z) :: o)) :
    z ∉ ns ∧ z ∉ o.map (·.2) := by
  unfold SingleAssignment at h
  rw [List.map_cons, List.perm_middle.nodup_iff, List.nodup_cons, List.mem_append, not_or] at h
  exact h.1

theorem SingleAssignment.of_perm {ns ms : List Nm} {o p : List OrderStep} (h : SingleAssignment ns o) (hn : ns.Perm ms)
    (hp : (o.map (·.2)).Perm (p.map (·.2))) : SingleAssignment ms p := by
  unfold SingleAssignment at *
  exact (hn.append hp).nodup_iff.1 h

theorem subset_split {xs ns : List Nm} (hx : xs.Nodup) (hs : ∀ x ∈ xs, x ∈ ns) : ∃ rest, ns.Perm (xs ++ rest) := by
  obtain ⟨l, hl, hsub⟩ := List.subperm_of_subset hx hs
  obtain ⟨rest, h⟩ := hsub.exists_perm_append
  exact ⟨rest, h.trans (hl.append_right rest)⟩

/-- A step whose operands are there can be done first. -/
theorem Runs.pull {ns ns' xs : List Nm} {z : Nm} {pre post : List OrderStep} (h : Runs ns (pre ++ (xs, z) :: post) ns')
    (hs : SingleAssignment ns (pre ++ (xs, z) :: post)) (hx : ∀ x ∈ xs, x ∈ ns) : Runs ns ((xs, z) :: (pre ++ post)) ns' := by
  induction pre generalizing ns with
  | nil => exact h
  | cons s pre ih =>
    obtain ⟨us, w⟩ := s
    have hnd := h.ops_nodup hs
    cases h with
    | @cons _ _ rest _ _ _ h1 h2 h3 h4 =>
      obtain ⟨_, hu, hnd'⟩ := nodup_flatMap_cons hnd
      have hxop : ∀ x ∈ xs, x ∈ (pre ++ (xs, z) :: post).flatMap (·.1) := fun x hx => by
        rw [List.flatMap_append, List.flatMap_cons]
        exact List.mem_append_right _ (List.mem_append_left _ hx)
      have hxr : ∀ x ∈ xs, x ∈ rest := fun x hx' => by
        rcases List.mem_append.1 (h1.subset (hx x hx')) with h | h
        · exact absurd (hxop x hx') (hu x h)
        · exact h
      have hs' := SingleAssignment.tail (o := pre ++ (xs, z) :: post) hs h1
      obtain ⟨hw1, hw2⟩ := SingleAssignment.fresh (o := pre ++ (xs, z) :: post) hs
      have hxnd : xs.Nodup := by
        have h0 : ((pre ++ (xs, z) :: post).flatMap (·.1) ++ ns').Nodup := hnd'
        rw [List.flatMap_append, List.flatMap_cons] at h0
        exact (h0.sublist (l₁ := xs) (by
          refine List.Sublist.trans ?_ (List.sublist_append_left _ _)
          refine List.Sublist.trans ?_ (List.sublist_append_right _ _)
          exact List.sublist_append_left _ _))
      obtain ⟨rest', hr'⟩ := subset_split hxnd hxr
      have h5 := ih h4 hs' (fun x hx => List.mem_cons_of_mem _ (hxr x hx))
      cases h5 with
      | @cons _ _ r2 _ _ _ g1 g2 g3 g4 =>
        have hr2 : r2.Perm (w :: rest') := by
          have e1 : (xs ++ r2).Perm (xs ++ w :: rest') :=
            g1.symm.trans ((List.Perm.cons w hr').trans List.perm_middle.symm)
          exact (List.perm_append_left_iff xs).1 e1
        have hz : z ∉ ns ∧ z ≠ w := by
          have h0 := hs
          unfold SingleAssignment at h0
          rw [List.nodup_append'] at h0
          have hzin : z ∈ (pre ++ (xs, z) :: post).map (·.2) := by simp
          refine ⟨fun hc => h0.2.2 hc (by rw [List.cons_append, List.map_cons]; exact List.mem_cons_of_mem _ hzin), ?_⟩
          rintro rfl
          exact hw2 hzin
        have hrs : ∀ x ∈ us ++ rest', x ∈ ns := fun x hx => h1.symm.subset (by
          rw [List.mem_append] at hx ⊢
          exact hx.imp id fun h => hr'.symm.subset (List.mem_append_right _ h))
        refine .cons (rest := us ++ rest') ?_ g2 (fun hc => hz.1 (hrs _ hc)) ?_
        · refine h1.trans ((hr'.append_left us).trans ?_)
          rw [← List.append_assoc, ← List.append_assoc]
          exact List.perm_append_comm.append_right rest'
        · refine .cons (xs := us) (rest := z :: rest') ?_ h2 ?_ ?_
          · rw [← List.cons_append]
            exact List.perm_middle.symm
          · rw [List.mem_cons, not_or]
            exact ⟨fun e => hz.2 e.symm, fun hc => h3 (hr'.symm.subset (List.mem_append_right _ hc))⟩
          · exact g4.permL ((List.Perm.cons z hr2).trans (List.Perm.swap _ _ _))

/-- Delaying a step: its operands are handed to the step that uses its result. -/
theorem Runs.inline_aux {xs : List Nm} (hne : xs ≠ []) {l : Nm} {mid post : List OrderStep} {ys ns' : List Nm} {z : Nm} (hl : l ∈ ys) :
    ∀ {rest : List Nm}, Runs (l :: rest) (mid ++ (ys, z) :: post) ns' → SingleAssignment (l :: rest) (mid ++ (ys, z) :: post) →
      (∀ w ∈ mid.map (·.2), w ∉ xs) → Runs (xs ++ rest) (mid ++ (ys.erase l ++ xs, z) :: post) ns' := by
  induction mid with
  | nil =>
    intro rest h _ _
    cases h with
    | @cons _ _ rest' _ _ _ h1 h2 h3 h4 =>
      refine .cons (rest := rest') ?_ (by simp [hne]) h3 h4
      have e1 : (l :: rest).Perm (l :: (ys.erase l ++ rest')) := h1.trans ((List.perm_cons_erase hl).append_right rest')
      have e2 := e1.cons_inv
      refine (e2.append_left xs).trans ?_
      rw [← List.append_assoc]
      exact List.perm_append_comm.append_right rest'
  | cons s mid ih =>
    obtain ⟨us, w⟩ := s
    intro rest h hs hw
    have hnd := h.ops_nodup hs
    cases h with
    | @cons _ _ rest' _ _ _ h1 h2 h3 h4 =>
      obtain ⟨_, hu, _⟩ := nodup_flatMap_cons hnd
      have hlo : l ∈ (mid ++ (ys, z) :: post).flatMap (·.1) := by
        rw [List.flatMap_append, List.flatMap_cons]
        exact List.mem_append_right _ (List.mem_append_left _ hl)
      have hlr : l ∈ rest' := by
        rcases List.mem_append.1 (h1.subset (List.mem_cons_self)) with h | h
        · exact absurd hlo (hu l h)
        · exact h
      have hs' := SingleAssignment.tail (o := mid ++ (ys, z) :: post) hs h1
      have hr := List.perm_cons_erase hlr
      have hwl : w ≠ l := by
        rintro rfl
        exact h3 hlr
      have e1 : (l :: rest).Perm (l :: (us ++ rest'.erase l)) :=
        h1.trans ((hr.append_left us).trans List.perm_middle)
      have e2 := e1.cons_inv
      have e3 : (w :: rest').Perm (l :: w :: rest'.erase l) := (List.Perm.cons w hr).trans (List.Perm.swap _ _ _)
      refine .cons (xs := us) (rest := xs ++ rest'.erase l) ?_ h2 ?_ ?_
      · refine (e2.append_left xs).trans ?_
        rw [← List.append_assoc, ← List.append_assoc]
        exact List.perm_append_comm.append_right _
      · rw [List.mem_append, not_or]
        exact ⟨hw w (by simp), fun hc => h3 (List.mem_of_mem_erase hc)⟩
      · refine (ih (h4.permL e3) (hs'.of_perm e3 (List.Perm.refl _)) (fun v hv => hw v (by simp [hv]))).permL ?_
        exact List.perm_middle

theorem Runs.inline {xs ys ns ns' : List Nm} {l z : Nm} {pre mid post : List OrderStep} (hl : l ∈ ys)
    (h : Runs ns (pre ++ (xs, l) :: mid ++ (ys, z) :: post) ns') (hs : SingleAssignment ns (pre ++ (xs, l) :: mid ++ (ys, z) :: post)) :
    Runs ns (pre ++ mid ++ (ys.erase l ++ xs, z) :: post) ns' := by
  induction pre generalizing ns with
  | nil =>
    cases h with
    | @cons _ _ rest _ _ _ h1 h2 h3 h4 =>
      refine (Runs.inline_aux h2 hl h4 (SingleAssignment.tail hs h1) ?_).permL h1.symm
      intro w hw hx
      unfold SingleAssignment at hs
      rw [List.nodup_append'] at hs
      refine hs.2.2 (h1.symm.subset (List.mem_append_left _ hx)) ?_
      simp only [List.nil_append, List.cons_append, List.map_cons, List.map_append, List.mem_cons, List.mem_append]
      exact Or.inr (Or.inl hw)
  | cons s pre ih =>
    obtain ⟨us, w⟩ := s
    cases h with
    | @cons _ _ rest _ _ _ h1 h2 h3 h4 =>
      exact .cons h1 h2 h3 (ih h4 (SingleAssignment.tail hs h1))

end Verif
