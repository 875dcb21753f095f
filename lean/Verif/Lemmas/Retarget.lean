import Verif.Lemmas.Armed
/-! # Helper lemmas: `update_fix`, `set_data`, indexing, and the enumeration of sub-tasks -/

set_option linter.unusedSectionVars false

namespace Verif

variable {R : Type} [CommSemiring R] {L : Type} [AddCommMonoid L] {τ : Type} [HasShape τ]

/-! ## `update_fix` -/

theorem fixEntries_cons (b : Nat) (x : Nm × List Nat × Nat) (l : List (Nm × List Nat × Nat)) :
    fixEntries b (x :: l) = ((x.1, x.2.1), b) :: fixEntries (b + 1) l := by
  unfold fixEntries
  rw [List.zipIdx_cons, List.map_cons, Nat.zero_add, List.zipIdx_eq_map_add, List.map_map]
  simp only [Nat.add_zero, List.cons.injEq, true_and]
  refine List.map_congr_left fun p _ => ?_
  simp only [Function.comp, Prod.mk.injEq, true_and]
  omega

/-- How an entry changes. -/
def Retargets (fixOf : Nm → Option (Option (List Nat))) (x y : Nm × List Nat × Nat) : Prop :=
  x.1 = y.1 ∧ ((fixOf x.1 = some none ∧ y.2.1 = x.2.1) ∨ ∃ v vs, fixOf x.1 = some (some (v :: vs)) ∧ y.2.1 = v :: vs)

theorem updateFixGo_new {fixOf : Nm → Option (Option (List Nat))} {l l' : List (Nm × List Nat × Nat)}
    (hl : List.Forall₂ (Retargets fixOf) l l') (hn : (l.map Prod.fst).Nodup) {b : Nat} {new : Dict (Nm × List Nat) Nat}
    (hnew : ∀ p ∈ new, p.1.1 ∉ l.map Prod.fst) (h : Heap L R) :
    ∃ h', updateFixGo fixOf (fixEntries b l) new h = some (new ++ fixEntries b l', h') ∧ h'.data = h.data ∧
      (∀ (i : Nat) x v vs, l[i]? = some x → fixOf x.1 = some (some (v :: vs)) → h'.fix (b + i) = v) ∧
      ∀ c, c < b → h'.fix c = h.fix c := by
  induction hl generalizing b new h with
  | nil => exact ⟨h, by simp [fixEntries, updateFixGo], rfl, by simp, fun _ _ => rfl⟩
  | @cons x y l l' hxy hl ih =>
    rw [List.map_cons, List.nodup_cons] at hn
    obtain ⟨hxy1, hxy2⟩ := hxy
    have hkey : ∀ vals : List Nat, (x.1, vals) ∉ new.keys := by
      intro vals hc
      obtain ⟨p, hp, hpe⟩ := List.mem_map.1 hc
      exact hnew p hp (by rw [hpe]; simp)
    have hnext : ∀ vals c, ∀ p ∈ new ++ [(((x.1, vals), c) : (Nm × List Nat) × Nat)], p.1.1 ∉ l.map Prod.fst := by
      intro vals c p hp
      rcases List.mem_append.1 hp with hp | hp
      · exact fun hc => hnew p hp (by simp only [List.map_cons, List.mem_cons]; exact Or.inr hc)
      · rw [List.mem_singleton] at hp
        subst hp
        exact hn.1
    rw [fixEntries_cons, fixEntries_cons, updateFixGo]
    rcases hxy2 with ⟨hf, hy⟩ | ⟨v, vs, hf, hy⟩
    · rw [hf]
      dsimp only
      rw [Dict.set_eq_append (hkey _)]
      obtain ⟨h', h1, h2, h3, h4⟩ := ih hn.2 (b := b + 1) (hnext x.2.1 b) h
      refine ⟨h', ?_, h2, ?_, fun c hc => h4 c (by omega)⟩
      · rw [h1, ← hxy1, hy]; simp
      · intro i z v vs hi hz
        cases i with
        | zero => simp only [List.getElem?_cons_zero, Option.some.injEq] at hi; subst hi; rw [hf] at hz; simp at hz
        | succ i => rw [show b + (i + 1) = b + 1 + i by omega]; exact h3 i z v vs (by simpa using hi) hz
    · rw [hf]
      dsimp only
      rw [Dict.set_eq_append (hkey _)]
      obtain ⟨h', h1, h2, h3, h4⟩ := ih hn.2 (b := b + 1) (hnext (v :: vs) b) (h.putFix b v)
      refine ⟨h', ?_, h2, ?_, fun c hc => ?_⟩
      · rw [h1, ← hxy1, hy]; simp
      · intro i z w ws hi hz
        cases i with
        | zero =>
          simp only [List.getElem?_cons_zero, Option.some.injEq] at hi
          subst hi
          rw [hf] at hz
          simp only [Option.some.injEq, List.cons.injEq] at hz
          rw [Nat.add_zero, h4 b (by omega), ← hz.1]
          simp [Heap.putFix]
        | succ i => rw [show b + (i + 1) = b + 1 + i by omega]; exact h3 i z w ws (by simpa using hi) hz
      · rw [h4 c (by omega)]
        have : c ≠ b := by omega
        simp [Heap.putFix, this]

theorem SameButFix.get? {tn tn2 : TN τ} (hs : SameButFix tn tn2) {e : Nm} {r : EdgeRec}
    (h : tn.edges.get? e = some r) :
    ∃ r', tn2.edges.get? e = some r' ∧ r'.dim = r.dim ∧ r'.fix.isSome = r.fix.isSome := by
  have hE := hs.edges
  revert h
  generalize tn.edges = es at hE
  generalize tn2.edges = es2 at hE
  intro h
  induction hE with
  | nil => simp [Dict.get?] at h
  | @cons p q es es2 hpq _ ih =>
    obtain ⟨k, r1⟩ := p
    obtain ⟨k2, r2⟩ := q
    obtain ⟨rfl, h1, h2⟩ := hpq
    unfold Dict.get? at h ⊢
    by_cases hk : k = e
    · rw [if_pos hk] at h ⊢
      cases h
      exact ⟨r2, rfl, h1.symm, h2.symm⟩
    · rw [if_neg hk] at h ⊢
      exact ih h

theorem SameButFix.symm {tn tn2 : TN τ} (hs : SameButFix tn tn2) : SameButFix tn2 tn :=
  ⟨hs.nodes.symm, hs.adj.symm, hs.openE.symm,
    (List.forall₂_iff_get.2 (by
      obtain ⟨h1, h2⟩ := List.forall₂_iff_get.1 hs.edges
      exact ⟨h1.symm, fun i hi hj => by
        obtain ⟨a, b, c⟩ := h2 i hj hi
        exact ⟨a.symm, b.symm, c.symm⟩⟩))⟩

theorem SameButFix.keys {tn tn2 : TN τ} (hs : SameButFix tn tn2) : tn2.edges.keys = tn.edges.keys := by
  unfold Dict.keys
  have hE := hs.edges
  generalize tn.edges = es at hE
  generalize tn2.edges = es2 at hE
  induction hE with
  | nil => rfl
  | cons hpq _ ih => rw [List.map_cons, List.map_cons, ih, hpq.1]

theorem SameButFix.dimOf {tn tn2 : TN τ} (hs : SameButFix tn tn2) : tn2.dimOf = tn.dimOf := by
  funext e
  unfold TN.dimOf
  cases h : tn.edges.get? e with
  | none =>
    cases h2 : tn2.edges.get? e with
    | none => rfl
    | some r2 =>
      obtain ⟨r, hr, _⟩ := hs.symm.get? h2
      rw [h] at hr; cases hr
  | some r =>
    obtain ⟨r2, hr, hd, _⟩ := hs.get? h
    rw [hr, Option.bind_some, Option.bind_some, hd]

theorem SameButFix.runnable {tn tn2 : TN τ} {split : List Nm} (hs : SameButFix tn tn2) (hR : Runnable tn split)
    (hf : FixOK tn2) : Runnable tn2 split := by
  obtain ⟨hc, hcan, hr, _, hsl⟩ := hR
  refine ⟨⟨?_, ?_, ?_, ?_, ?_, ?_⟩, ⟨?_, ?_, ?_, ?_⟩, ⟨?_, ?_⟩, hf, ⟨?_, ?_, ?_⟩⟩
  · rw [hs.nodes]; exact hc.nodes_nodup
  · rw [hs.keys]; exact hc.edges_nodup
  · rw [hs.nodes, hs.keys]; exact hc.legs_exist
  · rw [hs.openE, hs.keys]; exact hc.open_exist
  · rw [hs.nodes, hs.adj]; exact hc.adj_iff
  · rw [hs.adj]; exact hc.adj_nodup
  · rw [hs.openE]; exact hcan.nodup
  · rw [hs.openE, hs.nodes]; exact hcan.attached
  · intro e he r hr'
    rw [hs.openE] at he
    obtain ⟨r1, h1, _, h2⟩ := hs.symm.get? hr'
    rw [hcan.unfixed e he r1 h1] at h2
    simpa using h2.symm
  · rw [hs.nodes]; exact hcan.nonempty
  · intro n r hn
    rw [hs.nodes] at hn
    obtain ⟨t, sh, h1, h2, h3, h4⟩ := hr.nodes n r hn
    refine ⟨t, sh, h1, h2, h3, fun i e hi => ?_⟩
    obtain ⟨er, h5, h6⟩ := h4 i e hi
    obtain ⟨er2, h7, h8, _⟩ := hs.get? h5
    exact ⟨er2, h7, by rw [h8, h6]⟩
  · intro e he
    rw [hs.openE] at he
    obtain ⟨er, d, h5, h6⟩ := hr.opens e he
    obtain ⟨er2, h7, h8, _⟩ := hs.get? h5
    exact ⟨er2, d, h7, by rw [h8, h6]⟩
  · intro e he
    obtain ⟨d, hd, hp⟩ := hsl.ok e he
    obtain ⟨⟨dim, fix⟩, h7, h8, h9⟩ := hs.get? hd
    dsimp only at h8 h9
    cases fix with
    | none => exact ⟨d, by rw [h7, h8], hp⟩
    | some l => simp at h9
  · rw [hs.nodes]; exact hsl.attached
  · rw [hs.openE]
    refine hsl.proper.imp id ?_
    rintro ⟨e, he, hne⟩
    refine ⟨e, he, fun hc' => hne ?_⟩
    obtain ⟨⟨dim, fix⟩, h7, h8, h9⟩ := hs.symm.get? hc'
    dsimp only at h8 h9
    cases fix with
    | none => rw [h7, h8]
    | some l => simp at h9

/-- The plans of networks that differ only in the fixed values. -/
theorem SameButFix.plan {tn tn2 : TN τ} {split : List Nm} (hs : SameButFix tn tn2) (hR : Runnable tn split)
    (hf : FixOK tn2) {fixOf : Nm → Option (Option (List Nat))}
    (hfix : ∀ e ∈ tn.fixedE ++ tn.slicedE split, fixOf e = (tn2.edges.get? e).map EdgeRec.fix) :
    List.Forall₂ (Retargets fixOf) (tn.plan split) (tn2.plan split) := by
  have hR2 := hs.runnable hR hf
  rw [← plan_edges] at hfix
  rw [plan_eq hR] at hfix ⊢
  rw [plan_eq hR2]
  have hg1 : ∀ p ∈ tn.edges, tn.edges.get? p.1 = some p.2 := fun p hp => Dict.get?_of_mem hR.cons.edges_nodup hp
  have hg2 : ∀ p ∈ tn2.edges, tn2.edges.get? p.1 = some p.2 := fun p hp => Dict.get?_of_mem hR2.cons.edges_nodup hp
  have hok1 : ∀ p ∈ tn.edges, ∀ l, p.2.fix = some l → ∃ v, l = [v] := fun p hp l hl => by
    obtain ⟨v, d, h, _⟩ := hR.fix _ _ _ (hg1 p hp) hl
    exact ⟨v, h⟩
  have hok2 : ∀ p ∈ tn2.edges, ∀ l, p.2.fix = some l → ∃ v, l = [v] := fun p hp l hl => by
    obtain ⟨v, d, h, _⟩ := hf _ _ _ (hg2 p hp) hl
    exact ⟨v, h⟩
  have hns : ∀ p ∈ tn2.edges, p.1 ∈ split → p.2.fix = none := fun p hp hsp => by
    obtain ⟨d, hd, _⟩ := hR2.slice.ok _ hsp
    rw [hg2 p hp] at hd
    rw [Option.some.inj hd]
  rw [List.map_append] at hfix
  have hfix1 : ∀ p ∈ tn2.edges, p.1 ∈ (fixedEntries tn.edges).map Prod.fst → fixOf p.1 = some p.2.fix := fun p hp hm => by
    rw [hfix _ (List.mem_append_left _ hm), hg2 p hp]; rfl
  have hfix2 : ∀ p ∈ tn2.edges, p.1 ∈ (sliceEntries split tn.edges).map Prod.fst → fixOf p.1 = some p.2.fix := fun p hp hm => by
    rw [hfix _ (List.mem_append_right _ hm), hg2 p hp]; rfl
  refine List.rel_append ?_ ?_
  · clear hg1 hg2 hns hfix2 hfix
    have hE := hs.edges
    revert hok1 hok2 hfix1
    generalize tn.edges = es at hE
    generalize tn2.edges = es2 at hE
    clear hs hR hR2
    induction hE with
    | nil => intros; exact .nil
    | @cons p q es es2 hpq _ ih =>
      obtain ⟨k, d, f⟩ := p
      obtain ⟨k2, d2, f2⟩ := q
      intro hok1 hok2 hfix1
      obtain ⟨h1, h2, h3⟩ := hpq
      dsimp only at h1 h2 h3
      subst h1
      unfold fixedEntries at hfix1 ⊢
      rw [List.filterMap_cons] at hfix1
      rw [List.filterMap_cons, List.filterMap_cons]
      cases f with
      | none =>
        cases f2 with
        | some l => simp at h3
        | none =>
          dsimp only at hfix1 ⊢
          exact ih (fun p hp => hok1 p (by simp [hp])) (fun p hp => hok2 p (by simp [hp]))
            fun p hp hm => hfix1 p (by simp [hp]) hm
      | some l =>
        cases f2 with
        | none => simp at h3
        | some l2 =>
          obtain ⟨v, rfl⟩ := hok1 (k, ⟨d, some l⟩) (by simp) l rfl
          obtain ⟨v2, rfl⟩ := hok2 (k, ⟨d2, some l2⟩) (by simp) l2 rfl
          dsimp only at hfix1 ⊢
          refine .cons ⟨rfl, Or.inr ⟨v2, [], ?_, rfl⟩⟩ (ih (fun p hp => hok1 p (by simp [hp]))
            (fun p hp => hok2 p (by simp [hp])) fun p hp hm => hfix1 p (by simp [hp]) (List.mem_cons_of_mem _ hm))
          exact hfix1 (k, ⟨d2, some [v2]⟩) (by simp) (by simp)
  · clear hg1 hg2 hfix1 hfix hok1 hok2
    have hE := hs.edges
    revert hns hfix2
    generalize tn.edges = es at hE
    generalize tn2.edges = es2 at hE
    clear hs hR hR2
    induction hE with
    | nil => intros; exact .nil
    | @cons p q es es2 hpq _ ih =>
      obtain ⟨k, d, f⟩ := p
      obtain ⟨k2, d2, f2⟩ := q
      intro hns hfix2
      obtain ⟨h1, h2, h3⟩ := hpq
      dsimp only at h1 h2 h3
      subst h1 h2
      unfold sliceEntries at hfix2 ⊢
      rw [List.filterMap_cons] at hfix2
      rw [List.filterMap_cons, List.filterMap_cons]
      by_cases hk : k ∈ split
      · simp only [if_pos hk] at hfix2 ⊢
        have hf2 : f2 = none := hns (k, ⟨d, f2⟩) (by simp) hk
        subst hf2
        refine .cons ⟨rfl, Or.inl ⟨?_, rfl⟩⟩ (ih (fun p hp => hns p (by simp [hp]))
          fun p hp hm => hfix2 p (by simp [hp]) (List.mem_cons_of_mem _ hm))
        exact hfix2 (k, ⟨d, none⟩) (by simp) (by simp)
      · simp only [if_neg hk] at hfix2 ⊢
        exact ih (fun p hp => hns p (by simp [hp])) fun p hp hm => hfix2 p (by simp [hp]) hm

section
variable {tn tn2 : TN τ} {split : List Nm} {val : τ → List Nat → R} {T : Task R} {h : Heap L R}

theorem retargets_edges {fixOf : Nm → Option (Option (List Nat))} {l l' : List (Nm × List Nat × Nat)}
    (hl : List.Forall₂ (Retargets fixOf) l l') : l'.map Prod.fst = l.map Prod.fst := by
  induction hl with
  | nil => rfl
  | cons hxy _ ih => rw [List.map_cons, List.map_cons, ih, hxy.1]

theorem SameButFix.fixedE {tn tn2 : TN τ} {split : List Nm} (hs : SameButFix tn tn2) (hR : Runnable tn split)
    (hf : FixOK tn2) : tn2.fixedE = tn.fixedE ∧ tn2.slicedE split = tn.slicedE split := by
  have hR2 := hs.runnable hR hf
  have h1 : tn2.slicedE split = tn.slicedE split := by
    have hp := plan_eq hR
    have hp2 := plan_eq hR2
    unfold TN.plan at hp hp2
    unfold TN.slicedE
    rw [List.append_cancel_left hp, List.append_cancel_left hp2]
    unfold sliceEntries
    have hE := hs.edges
    generalize tn.edges = es at hE
    generalize tn2.edges = es2 at hE
    induction hE with
    | nil => rfl
    | @cons p q es es2 hpq _ ih =>
      obtain ⟨h1, h2, _⟩ := hpq
      rw [List.filterMap_cons, List.filterMap_cons, ← h1]
      by_cases hk : p.1 ∈ split
      · simp only [if_pos hk]
        rw [List.map_cons, List.map_cons, ih]
      · simp only [if_neg hk]
        exact ih
  refine ⟨?_, h1⟩
  have := retargets_edges (hs.plan hR hf (fixOf := fun e => (tn2.edges.get? e).map EdgeRec.fix) fun _ _ => rfl)
  rw [plan_edges, plan_edges, h1] at this
  exact List.append_cancel_right this

/-- `update_fix` with a network that agrees with `tn2` on the fixed and sliced edges. -/
theorem Armed.updateFix {τ' : Type} (hs : SameButFix tn tn2) (hR : Runnable tn split) (hf : FixOK tn2)
    (ha : Armed val tn split T h) {tnU : TN τ'} (hU : ∀ e ∈ tn.fixedE ++ tn.slicedE split,
      (tnU.edges.get? e).map EdgeRec.fix = (tn2.edges.get? e).map EdgeRec.fix) :
    ∃ T' h', T.updateFix tnU h = some (T', h') ∧ Armed val tn2 split T' h' ∧ T'.data = T.data ∧ T'.pre = some false := by
  have hR2 := hs.runnable hR hf
  obtain ⟨arr, hrun, hset, hlen, harr⟩ := ha
  have hpl := hs.plan hR hf hU
  obtain ⟨hF, hS⟩ := hs.fixedE hR hf
  have hnd : ((tn.plan split).map Prod.fst).Nodup := by rw [hrun.edges]; exact hrun.nodup
  obtain ⟨h', h1, h2, h3, _⟩ := updateFixGo_new hpl hnd (b := 0) (new := []) (by simp) h
  rw [List.nil_append] at h1
  have hnl : tn2.nodeLegs = tn.nodeLegs := by unfold TN.nodeLegs; rw [hs.nodes]
  have hlen2 : fixLength (fixEntries 0 (tn2.plan split)) = fixLength (fixEntries 0 (tn.plan split)) := by
    unfold fixLength
    rw [show (fun p : (Nm × List Nat) × Nat => p.1.2.length) = (fun p : Nm × List Nat => p.2.length) ∘ Prod.fst from rfl,
      ← List.map_map, ← List.map_map, fixEntries_pairs, fixEntries_pairs, List.map_map, List.map_map]
    congr 1
    have hx : ∀ x ∈ tn.plan split, x.1 ∈ tn.fixedE → x.2.1.length = 1 := fun x hx hxF => by
      obtain ⟨v, hv, _⟩ := hrun.valF x hx hxF
      rw [hv]; rfl
    have key : ∀ {l l' : List (Nm × List Nat × Nat)},
        List.Forall₂ (Retargets fun e => (tnU.edges.get? e).map EdgeRec.fix) l l' →
        (∀ x ∈ l, ∀ y ∈ l', Retargets (fun e => (tnU.edges.get? e).map EdgeRec.fix) x y → y.2.1.length = x.2.1.length) →
        l'.map (fun p => p.2.1.length) = l.map fun p => p.2.1.length := by
      intro l l' hl
      induction hl with
      | nil => intro _; rfl
      | cons hxy _ ih =>
        intro hh
        rw [List.map_cons, List.map_cons, ih fun x hx y hy => hh x (by simp [hx]) y (by simp [hy]),
          hh _ (by simp) _ (by simp) hxy]
    refine key hpl fun x hx1 y hy hxy => ?_
    obtain ⟨h4, h5⟩ := hxy
    rcases h5 with ⟨_, h5⟩ | ⟨v, vs, h5, h6⟩
    · rw [h5]
    · have hxm : x.1 ∈ tn.fixedE ++ tn.slicedE split := by rw [← hrun.edges]; exact List.mem_map_of_mem hx1
      dsimp only at h5
      rw [hU _ hxm] at h5
      obtain ⟨r, hr, hrf⟩ := Option.map_eq_some_iff.1 h5
      obtain ⟨v', d, hv', _⟩ := hf _ _ _ hr hrf
      have : x.1 ∈ tn.fixedE := by
        refine (List.mem_append.1 hxm).resolve_right fun hS' => ?_
        obtain ⟨d, hd, _⟩ := hR2.slice.ok _ ((mem_slicedE hR.cons hR.canon hR.slice).1 hS')
        rw [hd] at hr
        cases hr
        simp at hrf
      rw [hx x hx1 this, h6, hv']; rfl
  refine ⟨{ T with fixDict := fixEntries 0 (tn2.plan split), pre := some false }, h', ?_, ⟨arr, ?_, ?_, ?_, ?_⟩, rfl, rfl⟩
  · unfold Task.updateFix
    rw [hrun.dict, h1]
  · rw [hs.dimOf, hnl, hs.openE, hF, hS]
    refine ⟨⟨hrun.task.inputs, hrun.task.openE, hrun.task.shape, hrun.task.subOut, hrun.task.sem⟩, hrun.names,
      hrun.opn_nodup, hrun.opn_F, by rw [retargets_edges hpl, hrun.edges], hrun.nodup, rfl, ?_, ?_, hrun.data, hrun.arrs,
      hrun.proper⟩
    · intro x hx hxF
      rcases plan_vals hR2.cons hR2.canon hR2.fix hR2.slice hx with ⟨_, d, v, hg, hlt, heq⟩ | ⟨hsp, _⟩
      · refine ⟨v, by rw [heq], ?_⟩
        rw [← hs.dimOf]
        unfold TN.dimOf
        rw [hg]; exact hlt
      · exact absurd ((mem_slicedE hR.cons hR.canon hR.slice).2 hsp)
          fun h => (List.disjoint_of_nodup_append hrun.nodup) hxF h
    · intro x hx hxS
      rcases plan_vals hR2.cons hR2.canon hR2.fix hR2.slice hx with ⟨hxF, _⟩ | ⟨_, d, hg, hpos, heq⟩
      · rw [hF] at hxF
        exact absurd hxS fun h => (List.disjoint_of_nodup_append hrun.nodup) hxF h
      · have hd : tn.dimOf x.1 = d := by rw [← hs.dimOf]; unfold TN.dimOf; rw [hg]; rfl
        rw [hd, heq]; exact ⟨rfl, hpos⟩
  · rw [hF]
    intro x hx hxF v hv
    have hxe : x.1 ∈ (tn.plan split).map Prod.fst := by
      rw [← retargets_edges hpl]; exact List.mem_map_of_mem hx
    obtain ⟨z, hz, hzx⟩ := List.mem_map.1 hxe
    rw [← hzx] at hxF ⊢
    obtain ⟨i, hi, rfl⟩ := List.mem_iff_getElem.1 hz
    have hidx : tn.fixedE.idxOf (tn.plan split)[i].1 = i := by
      have h5 : (tn.fixedE ++ tn.slicedE split).idxOf (tn.plan split)[i].1 = i := by
        rw [← hrun.edges]
        have : (tn.plan split)[i].1 = ((tn.plan split).map Prod.fst)[i]'(by simpa using hi) := by simp
        rw [this]
        exact List.Nodup.idxOf_getElem hnd i _
      rwa [List.idxOf_append_of_mem hxF] at h5
    rw [hidx]
    have := h3 i _ v [] (List.getElem?_eq_getElem hi) (by
      rw [hU _ (List.mem_append_left _ hxF)]
      rcases plan_vals hR2.cons hR2.canon hR2.fix hR2.slice hx with ⟨_, d, v', hg, hlt, heq⟩ | ⟨hsp, _⟩
      · rw [heq] at hv
        simp only [List.cons.injEq, and_true] at hv
        rw [hzx, hg, hv]; rfl
      · rw [hzx] at hxF
        exact absurd ((mem_slicedE hR.cons hR.canon hR.slice).2 hsp)
          fun h => (List.disjoint_of_nodup_append hrun.nodup) hxF h)
    rwa [Nat.zero_add] at this
  · rw [hlen, hrun.dict, ← hlen2]
  · intro n r hn
    rw [hs.nodes] at hn
    rw [hs.dimOf]
    exact harr n r hn

/-- `set_data` with a dictionary holding the right array under every node name, in any order. -/
theorem Armed.setData (hR : Runnable tn split) (ha : Armed val tn split T h) {data : Dict Nm (Arr R)}
    (hkeys : data.keys.Perm tn.nodes.keys)
    (hdata : ∀ n r t, tn.nodes.get? n = some r → r.ten = some t → ∃ a, data.get? n = some a ∧
      a.shape = r.legs.map tn.dimOf) {val' : τ → List Nat → R}
    (hval : ∀ n r t a, tn.nodes.get? n = some r → r.ten = some t → data.get? n = some a →
      ∀ idx, InRange a.shape idx → a.get idx = val' t idx) :
    Armed val' tn split (T.setData data) h := by
  obtain ⟨arr, hrun, hset, hlen, harr⟩ := ha
  refine ⟨fun n => (data.get? n).getD (zeroArr []), ?_, hset, hlen, ?_⟩
  · refine ⟨⟨hrun.task.inputs, hrun.task.openE, hrun.task.shape, hrun.task.subOut, hrun.task.sem⟩, hrun.names,
      hrun.opn_nodup, hrun.opn_F, hrun.edges, hrun.nodup, hrun.dict, hrun.valF, hrun.valS, ?_, ?_, hrun.proper⟩
    · rw [nodeLegs_keys]; exact hkeys
    · intro p hp
      obtain ⟨q, hq, rfl⟩ := List.mem_map.1 hp
      have hg := Dict.get?_of_mem hR.cons.nodes_nodup hq
      obtain ⟨t, ht, _⟩ := harr _ _ hg
      obtain ⟨a, ha, hs⟩ := hdata _ _ t hg ht
      show data.get? q.1 = _ ∧ _
      dsimp only
      rw [ha]
      exact ⟨rfl, hs⟩
  · intro n r hn
    obtain ⟨t, ht, _⟩ := harr n r hn
    obtain ⟨a, ha, hs⟩ := hdata n r t hn ht
    refine ⟨t, ht, fun idx hi => ?_⟩
    dsimp only
    rw [ha]
    exact hval n r t a hn ht ha idx (by rw [hs]; exact hi)

/-! ## Sub-tasks one at a time -/

/-- The state after the first access: pre-computation done. -/
def Primed (val : τ → List Nat → R) (tn : TN τ) (split : List Nm) (E : Engine L R) (T : Task R) (h : Heap L R) : Prop :=
  ∃ arr : Nm → Arr R,
    RunOK L tn.dimOf tn.nodeLegs tn.openE tn.fixedE (tn.slicedE split) (tn.plan split) arr T ∧
    T.pre = some true ∧
    (∃ nx1 h1, Prepared tn.dimOf tn.nodeLegs tn.fixedE (tn.slicedE split) (tn.plan split) arr T E nx1 h1 ∧
      ∀ c, c < nx1 → h.data c = h1.data c) ∧
    T.length = fixLength T.fixDict ∧
    ∀ n r, tn.nodes.get? n = some r → ∃ t, r.ten = some t ∧
      ∀ idx, InRange (r.legs.map tn.dimOf) idx → (arr n).get idx = val t idx

theorem open_filter (hR : Runnable tn split) :
    tn.openE.filter (· ∉ tn.fixedE ++ tn.slicedE split) = tn.openE.filter (· ∉ split) := by
  refine List.filter_congr fun e he => ?_
  have hnF : e ∉ tn.fixedE := by
    intro hF
    obtain ⟨d, v, hg, _⟩ := (mem_fixedE hR.cons hR.fix).1 hF
    have := hR.canon.unfixed e he _ hg
    simp at this
  simp only [List.mem_append, hnF, mem_slicedE hR.cons hR.canon hR.slice, false_or]

theorem Armed.prepare {E : Engine L R} {ex : L → R} (hE : E.Sound ex) {srt : List Nm → List Nm}
    (hsrt : ∀ l, (srt l).Perm l) (ha : Armed val tn split T h) (hbind : srt T.data.keys = srt tn.nodes.keys)
    (hpre : T.pre = some false) :
    ∃ h', T.prepare srt E h = some ({ T with pre := some true }, h') ∧
      Primed val tn split E { T with pre := some true } h' := by
  obtain ⟨arr, hrun, hset, hlen, harr⟩ := ha
  obtain ⟨hb, hl1, hl2, hl3⟩ := hrun.load hsrt (by rw [nodeLegs_keys]; exact hbind) T h rfl rfl
  obtain ⟨nx1, h1, hr1, hf1, hsem⟩ := hrun.precompute hE (by intro x hx hF v hv; rw [hl2]; exact hset x hx hF v hv) hl3
  refine ⟨h1, ?_, arr, hrun.withPre _, rfl, ⟨nx1, h1, hsem, fun _ _ => rfl⟩, hlen, harr⟩
  unfold Task.prepare
  rw [hpre]
  dsimp only
  rw [hl1]
  dsimp only
  rw [hr1]

/-- Indexing and running at once. -/
theorem Primed.item (hR : Runnable tn split) {E : Engine L R} {ex : L → R} (hE : E.Sound ex)
    (srt : List Nm → List Nm) (hp : Primed val tn split E T h) (k : Nat) :
    ∃ hk h' r, T.getItem srt E k h = some (T, hk) ∧ T.sub.run E ex hk = some (h', r) ∧ Primed val tn split E T h' ∧
      IsSlice val tn split (tn.sliceOf split k) r := by
  obtain ⟨arr, hrun, hpre, ⟨nx1, h1, hsem, hh⟩, hlen, harr⟩ := hp
  obtain ⟨hk, h3, r, k1, k2, k3, k4, k5⟩ := hrun.item hE srt hsem hpre hh k
  have hmem := sliceOf_mem (val := val) (L := L) hR ⟨arr, hrun, k4, hlen, harr⟩ k
  refine ⟨hk, h3, r, k1, k2, ⟨arr, hrun, hpre, ⟨nx1, h1, hsem, k3⟩, hlen, harr⟩, ?_, fun b hb hσ => ?_⟩
  · rw [k5.1, open_filter hR]
  · rw [← open_filter hR, k5.2 b fun e he => hb e (List.mem_filter.1 he).1, ← sliceTerm_eq hR harr hmem]
    unfold sliceTerm
    rw [if_pos]
    · rfl
    · intro e he hP
      refine (hσ e he ?_).symm
      rcases List.mem_append.1 hP with hF | hS
      · exact absurd hF (hrun.opn_F e he)
      · exact (mem_slicedE hR.cons hR.canon hR.slice).1 hS

/-! ## The enumeration of the slices -/

theorem assign_inj {ls : List (Nm × List Nat)} (hn : (ls.map Prod.fst).Nodup) (hv : ∀ p ∈ ls, p.2.Nodup) {k j : Nat}
    {a a' : Nm → Nat} (hk : k < (ls.map fun p => p.2.length).prod) (hj : j < (ls.map fun p => p.2.length).prod)
    (h : ∀ e ∈ ls.map Prod.fst, assign ls k a e = assign ls j a' e) : k = j := by
  induction ls generalizing k j a a' with
  | nil => simp at hk hj; omega
  | cons p ls ih =>
    obtain ⟨e, vals⟩ := p
    rw [List.map_cons, List.nodup_cons] at hn
    rw [List.map_cons, List.prod_cons] at hk hj
    dsimp only at hk hj
    have hpos : 0 < vals.length := by
      rcases Nat.eq_zero_or_pos vals.length with h0 | h0
      · rw [h0] at hk; simp at hk
      · exact h0
    have hhead := h e (by simp)
    rw [assign, assign, assign_of_notMem hn.1, assign_of_notMem hn.1, Function.update_self, Function.update_self,
      List.getD_eq_getElem?_getD, List.getD_eq_getElem?_getD,
      List.getElem?_eq_getElem (Nat.mod_lt _ hpos), List.getElem?_eq_getElem (Nat.mod_lt _ hpos)] at hhead
    have hmod : k % vals.length = j % vals.length := by
      exact (List.Nodup.getElem_inj_iff (hv (e, vals) (by simp))).1 hhead
    have hdiv : k / vals.length = j / vals.length := by
      refine ih hn.2 (fun p hp => hv p (by simp [hp])) (Nat.div_lt_of_lt_mul hk) (Nat.div_lt_of_lt_mul hj)
        (a := Function.update a e (vals.getD (k % vals.length) 0))
        (a' := Function.update a' e (vals.getD (j % vals.length) 0)) fun e' he' => ?_
      have := h e' (by rw [List.map_cons]; exact List.mem_cons_of_mem _ he')
      rwa [assign, assign] at this
    rw [← Nat.div_add_mod k vals.length, ← Nat.div_add_mod j vals.length, hmod, hdiv]

theorem assign_surj {ls : List (Nm × List Nat)} (hn : (ls.map Prod.fst).Nodup) {σ : Nm → Nat}
    (hσ : ∀ p ∈ ls, σ p.1 ∈ p.2) (a : Nm → Nat) :
    ∃ k < (ls.map fun p => p.2.length).prod, ∀ e ∈ ls.map Prod.fst, assign ls k a e = σ e := by
  induction ls generalizing a with
  | nil => exact ⟨0, by simp, by simp⟩
  | cons p ls ih =>
    obtain ⟨e, vals⟩ := p
    rw [List.map_cons, List.nodup_cons] at hn
    obtain ⟨i, hi, hiv⟩ := List.mem_iff_getElem.1 (hσ (e, vals) (by simp))
    dsimp only at hi hiv
    obtain ⟨k, hk, hkv⟩ := ih hn.2 (fun p hp => hσ p (by simp [hp])) (Function.update a e (σ e))
    have hpos : 0 < vals.length := by omega
    have hmod : (i + vals.length * k) % vals.length = i := by
      rw [Nat.add_mul_mod_self_left, Nat.mod_eq_of_lt hi]
    have hdiv : (i + vals.length * k) / vals.length = k := by
      rw [Nat.add_mul_div_left _ _ hpos, Nat.div_eq_of_lt hi, Nat.zero_add]
    refine ⟨i + vals.length * k, ?_, fun e' he' => ?_⟩
    · rw [List.map_cons, List.prod_cons]
      dsimp only
      calc i + vals.length * k < vals.length + vals.length * k := by omega
        _ = vals.length * (k + 1) := by rw [Nat.mul_succ]; omega
        _ ≤ _ := Nat.mul_le_mul_left _ hk
    · rw [assign, hmod, hdiv, List.getD_eq_getElem?_getD, List.getElem?_eq_getElem hi, Option.getD_some, hiv]
      rw [List.map_cons, List.mem_cons] at he'
      rcases he' with rfl | he'
      · rw [assign_of_notMem hn.1, Function.update_self]
      · exact hkv e' he'

theorem digits_edges : (digits (tn.plan split)).map Prod.fst = tn.fixedE ++ tn.slicedE split := by
  rw [← plan_edges]; unfold digits; rw [List.map_map]; rfl

theorem fixLength_digits : fixLength (fixEntries 0 (tn.plan split)) =
    ((digits (tn.plan split)).map fun p => p.2.length).prod := by
  unfold fixLength
  rw [show (fun p : (Nm × List Nat) × Nat => p.1.2.length) = (fun p : Nm × List Nat => p.2.length) ∘ Prod.fst from rfl,
    ← List.map_map, fixEntries_pairs]
  rfl

/-- The number of sub-tasks is the product of the sizes of the sliced edges. -/
theorem length_eq (hR : Runnable tn split) (hn : split.Nodup) (ha : Armed val tn split T h) : T.length = (split.map tn.dimOf).prod := by
  obtain ⟨arr, hrun, _, hlen, _⟩ := ha
  rw [hlen, hrun.dict, fixLength_digits]
  have hS : (split.map tn.dimOf).prod = ((tn.slicedE split).map tn.dimOf).prod := by
    refine (List.Perm.map _ ?_).prod_eq
    refine (List.perm_ext_iff_of_nodup hn (List.nodup_append.1 hrun.nodup).2.1).2 fun e => ?_
    exact (mem_slicedE hR.cons hR.canon hR.slice).symm
  have hF : ((fixedEntries tn.edges).map fun p => p.2.1.length).prod = 1 := by
    refine List.prod_eq_one fun n hn => ?_
    obtain ⟨x, hx, rfl⟩ := List.mem_map.1 hn
    obtain ⟨v, hv, _⟩ := hrun.valF x (List.mem_append_left _ hx) (List.mem_map_of_mem hx)
    rw [hv]; rfl
  rw [hS]
  unfold digits
  rw [List.map_map, show tn.plan split = fixedEntries tn.edges ++ sliceEntries split (tn.pruned split).edges from rfl,
    List.map_append, List.prod_append]
  rw [show ((fun p : Nm × List Nat => p.2.length) ∘ fun p : Nm × List Nat × Nat => (p.1, p.2.1)) =
    fun p => p.2.1.length from rfl, hF, one_mul]
  unfold TN.slicedE
  rw [List.map_map]
  congr 1
  refine List.map_congr_left fun x hx => ?_
  rw [(hrun.valS x (List.mem_append_right _ hx) (List.mem_map_of_mem hx)).1, List.length_range]
  rfl

/-- Sub-task numbers and slices. -/
theorem sliceOf_bij (hR : Runnable tn split) (hn : split.Nodup) (ha : Armed val tn split T h) :
    Set.BijOn (fun k => split.map (tn.sliceOf split k)) {k | k < T.length} {t | InRange (split.map tn.dimOf) t} := by
  have hmem := sliceOf_mem hR ha
  have hlen' : T.length = ((digits (tn.plan split)).map fun p => p.2.length).prod := by
    obtain ⟨arr, hrun, _, hlen, _⟩ := ha
    rw [hlen, hrun.dict, fixLength_digits]
  have hnd : ((digits (tn.plan split)).map Prod.fst).Nodup := by
    rw [digits_edges]
    obtain ⟨arr, hrun, _⟩ := ha
    exact hrun.nodup
  have hvals : ∀ p ∈ digits (tn.plan split), p.2.Nodup ∧ ∀ v, v ∈ tn.dom p.1 → v ∈ p.2 := by
    intro p hp
    obtain ⟨x, hx, rfl⟩ := List.mem_map.1 hp
    rcases plan_vals hR.cons hR.canon hR.fix hR.slice hx with ⟨_, d, v, hg, _, heq⟩ | ⟨_, d, hg, _, heq⟩
    · rw [heq]
      refine ⟨by simp, fun w hw => ?_⟩
      unfold TN.dom EdgeRec.dom at hw
      rw [hg] at hw
      simpa using hw
    · rw [heq]
      refine ⟨List.nodup_range, fun w hw => ?_⟩
      unfold TN.dom EdgeRec.dom at hw
      rw [hg] at hw
      simpa using hw
  have hfixed : ∀ e ∈ tn.fixedE, ∃ v, tn.dom e = {v} := fun e he => by
    obtain ⟨d, v, hg, _⟩ := (mem_fixedE hR.cons hR.fix).1 he
    refine ⟨v, ?_⟩
    unfold TN.dom EdgeRec.dom
    rw [hg]; rfl
  refine ⟨fun k _ => ?_, fun k hk j hj hkj => ?_, fun t ht => ?_⟩
  · exact inRange_map.2 fun e he => dom_lt hR.fix (hmem k e
      (List.mem_append_right _ ((mem_slicedE hR.cons hR.canon hR.slice).2 he)))
  · rw [Set.mem_ofPred_eq, hlen'] at hk hj
    refine assign_inj hnd (fun p hp => (hvals p hp).1) hk hj (a := fun _ => 0) (a' := fun _ => 0) fun e he => ?_
    rw [digits_edges] at he
    rcases List.mem_append.1 he with h | h
    · obtain ⟨v, hv⟩ := hfixed e h
      have h1 := hmem k e he
      have h2 := hmem j e he
      rw [hv, Finset.mem_singleton] at h1 h2
      exact h1.trans h2.symm
    · exact List.map_inj_left.1 hkj e ((mem_slicedE hR.cons hR.canon hR.slice).1 h)
  · rw [Set.mem_ofPred_eq] at ht
    have htl : t.length = split.length := by rw [ht.length, List.length_map]
    obtain ⟨k, hk, hkv⟩ := assign_surj hnd (σ := fun e => if e ∈ split then coord split t e else tn.sliceOf split 0 e)
      (fun p hp => (hvals p hp).2 _ (by
        have hpe : p.1 ∈ tn.fixedE ++ tn.slicedE split := by rw [← digits_edges]; exact List.mem_map_of_mem hp
        split
        · next hs =>
          obtain ⟨d, hd, _⟩ := hR.slice.ok _ hs
          have h1 : tn.dimOf p.1 = d := by unfold TN.dimOf; rw [hd]; rfl
          have h2 : tn.dom p.1 = Finset.range d := by unfold TN.dom EdgeRec.dom; rw [hd]; rfl
          rw [← coord_self hn htl] at ht
          rw [h2, Finset.mem_range, ← h1]
          exact inRange_map.1 ht _ hs
        · exact hmem 0 _ hpe)) fun _ => 0
    refine ⟨k, by rw [Set.mem_ofPred_eq, hlen']; exact hk, ?_⟩
    show split.map (tn.sliceOf split k) = t
    rw [← coord_self hn htl]
    refine List.map_congr_left fun e he => ?_
    have := hkv e (by
      rw [digits_edges]
      exact List.mem_append_right _ ((mem_slicedE hR.cons hR.canon hR.slice).2 he))
    rw [if_pos he] at this
    exact this

/-- The merge step decodes a number to the same values. -/
theorem merge_decode (hR : Runnable tn split) (ha : Armed val tn split T h) (k : Nat) {e : Nm} (he : e ∈ tn.openE)
    (hs : e ∈ split) : (mergeAx T.subOut T.fixDict k []).get? e = some (tn.sliceOf split k e) := by
  obtain ⟨arr, hrun, _⟩ := ha
  have heS := (mem_slicedE hR.cons hR.canon hR.slice).2 hs
  obtain ⟨x, hx, rfl⟩ := hrun.mem_of (List.mem_append_right _ heS)
  obtain ⟨hv1, hv2⟩ := hrun.valS x hx heS
  have h1 := mergeAx_eq (sub := T.subOut) (d := fixEntries 0 (tn.plan split))
    (by rw [fixEntries_edges, hrun.edges]; exact hrun.nodup)
    (fun p hp hc => by
      rw [hrun.task.subOut, List.mem_filter, decide_eq_true_eq, ← hrun.edges, ← fixEntries_edges 0] at hc
      exact hc.2 (List.mem_map.2 ⟨p, hp, rfl⟩)) (k := k) (ax := []) (fun _ => 0) (hrun.entry hx) hv1 hv2
  rw [fixEntries_pairs, ← hrun.dict] at h1
  exact h1

end

end Verif
