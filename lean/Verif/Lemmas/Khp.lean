import Verif.Model.Khp
import Verif.Lemmas.Orders
import Mathlib.Data.List.Sort
/-!
# Lemmas about the hypergraph order finder
-/

namespace Verif

/-- Steps with new names numbered from `k` to `k'` that turn the tensors `ns` into `live`, whatever else is around. -/
structure KhpRun (ns : List Nm) (k k' : Int) (o : List OrderStep) (live : List Nm) : Prop where
  le : k ≤ k'
  names : ∃ js : List Int, o.map (·.2) = js.map freshName ∧ js.Nodup ∧ ∀ j ∈ js, k ≤ j ∧ j < k'
  run : ∀ rest, (∀ j, k ≤ j → j < k' → freshName j ∉ rest) → Runs (ns ++ rest) o (live ++ rest)
  two : ∀ s ∈ o, 2 ≤ s.1.length

theorem KhpRun.nil (ns : List Nm) (k : Int) : KhpRun ns k k [] ns :=
  ⟨le_rfl, ⟨[], rfl, List.nodup_nil, by simp⟩, fun _ _ => .nil (List.Perm.refl _), by simp⟩

theorem KhpRun.permL {ns ms : List Nm} {k k' : Int} {o : List OrderStep} {live : List Nm} (h : KhpRun ns k k' o live)
    (hp : ns.Perm ms) : KhpRun ms k k' o live :=
  ⟨h.le, h.names, fun rest hr => (h.run rest hr).permL (hp.append_right _), h.two⟩

/-- One after the other, on different tensors. -/
theorem KhpRun.both {a b a' b' : List Nm} {k k1 k2 : Int} {o o' : List OrderStep} (h : KhpRun a k k1 o a')
    (h' : KhpRun b k1 k2 o' b') (hb : ∀ j, k ≤ j → j < k1 → freshName j ∉ b)
    (ha : ∀ x ∈ a', ∀ j, k1 ≤ j → x ≠ freshName j) : KhpRun (a ++ b) k k2 (o ++ o') (a' ++ b') := by
  obtain ⟨js, e1, e2, e3⟩ := h.names
  obtain ⟨js', f1, f2, f3⟩ := h'.names
  have l1 := h.le
  have l2 := h'.le
  refine ⟨l1.trans l2, ⟨js ++ js', ?_, ?_, ?_⟩, fun rest hr => ?_, ?_⟩
  · rw [List.map_append, e1, f1, List.map_append]
  · refine List.Nodup.append e2 f2 fun j hj hj' => ?_
    have := e3 j hj
    have := f3 j hj'
    omega
  · intro j hj
    rcases List.mem_append.1 hj with hj | hj
    · have := e3 j hj; omega
    · have := f3 j hj; omega
  · have r1 := h.run (b ++ rest) fun j hj hj' hm => by
      rcases List.mem_append.1 hm with hm | hm
      · exact hb j hj hj' hm
      · exact hr j hj (by omega) hm
    have r2 := h'.run (a' ++ rest) fun j hj hj' hm => by
      rcases List.mem_append.1 hm with hm | hm
      · exact ha _ hm j hj rfl
      · exact hr j (by omega) hj' hm
    rw [List.append_assoc]
    refine Runs.append r1 ?_
    refine Runs.permR (r2.permL ?_) ?_
    · rw [← List.append_assoc, ← List.append_assoc]
      exact List.perm_append_comm.append_right _
    · rw [← List.append_assoc]
      exact List.perm_append_comm.append_right _
  · intro s hs
    rcases List.mem_append.1 hs with hs | hs
    · exact h.two s hs
    · exact h'.two s hs

/-- A last step that gives the remaining tensors a new name. -/
theorem KhpRun.close {ns xs : List Nm} {k k' : Int} {init : List OrderStep} (h : KhpRun ns (k + 1) k' init xs)
    (hx : 2 ≤ xs.length) : KhpRun ns k k' (init ++ [(xs, freshName k)]) [freshName k] := by
  obtain ⟨js, e1, e2, e3⟩ := h.names
  have l1 := h.le
  refine ⟨by omega, ⟨js ++ [k], ?_, ?_, ?_⟩, fun rest hr => ?_, ?_⟩
  · rw [List.map_append, e1, List.map_append]; rfl
  · refine List.Nodup.append e2 (List.nodup_singleton _) fun j hj hj' => ?_
    have := e3 j hj
    rw [List.mem_singleton] at hj'
    omega
  · intro j hj
    rcases List.mem_append.1 hj with hj | hj
    · have := e3 j hj; omega
    · rw [List.mem_singleton] at hj; omega
  · refine Runs.append (h.run rest fun j hj hj' => hr j (by omega) hj') ?_
    refine .cons (List.Perm.refl _) ?_ (hr k le_rfl (by omega)) (.nil (List.Perm.refl _))
    rintro rfl
    simp at hx
  · intro s hs
    rcases List.mem_append.1 hs with hs | hs
    · exact h.two s hs
    · rw [List.mem_singleton] at hs
      subst hs
      exact hx

/-! ## Matrices -/

theorem Tanner.refresh_length (g : Tanner) : g.refresh.length = g.length := by
  simp [Tanner.refresh]

theorem zip_filter_length {α : Type} (p : Bool → Bool) : ∀ (g : List α) (l : List Bool), g.length = l.length →
    (((g.zip l).filter fun q => p q.2).map Prod.fst).length = (l.filter p).length
  | [], [], _ => rfl
  | a :: g, b :: l, h => by
    have ih := zip_filter_length p g l (by simpa using h)
    rw [List.length_map] at ih ⊢
    rw [List.zip_cons_cons, List.filter_cons, List.filter_cons]
    cases hb : p b
    · simpa [hb] using ih
    · simpa [hb] using ih

theorem Tanner.sub_ok {g : Tanner} {nodes subn others : List Nm} (hn : nodes.Nodup) (hp : nodes.Perm (subn ++ others))
    (hg : g.length = nodes.length + 1) (new : Nm) :
    ∃ inner g' nodes', g.sub nodes subn new = some (inner, g', nodes') ∧ inner.length = subn.length + 1 ∧
      nodes'.Perm (others ++ [new]) ∧ g'.length = nodes'.length + 1 := by
  have hnd := hp.nodup_iff.1 hn
  have h1 : (nodes.filter fun n => subn.contains n).Perm subn := by
    refine (hp.filter _).trans ?_
    rw [List.filter_append, List.filter_eq_self.2 fun a ha => List.contains_iff_mem.2 ha, List.filter_eq_nil_iff.2, List.append_nil]
    intro a ha hc
    exact (List.nodup_append'.1 hnd).2.2 (List.contains_iff_mem.1 hc) ha
  have h2 : (nodes.filter fun n => !(subn.contains n)).Perm others := by
    refine (hp.filter _).trans ?_
    rw [List.filter_append, (List.filter_eq_nil_iff (l := subn)).2, List.nil_append, List.filter_eq_self.2]
    · intro a ha
      rw [Bool.not_eq_true', ← Bool.not_eq_true, List.contains_iff_mem]
      exact fun hc => (List.nodup_append'.1 hnd).2.2 hc ha
    · intro a ha
      simp [ha]
  have hl : (false :: nodes.map fun n => subn.contains n).length = g.length := by simp [hg]
  unfold Tanner.sub
  dsimp only
  rw [if_neg (by rw [hl]; simp)]
  refine ⟨_, _, _, rfl, ?_, h2.append_right _, ?_⟩
  · rw [List.length_cons]
    congr 1
    rw [zip_filter_length (fun b => b) g _ hl.symm, List.filter_cons_of_neg (by simp), List.filter_map, List.length_map]
    exact h1.length_eq
  · rw [List.length_append, List.length_append, zip_filter_length (fun b => !b) g _ hl.symm, List.filter_cons_of_pos (by simp),
      List.filter_map, List.length_cons, List.length_map]
    rfl

/-! ## Blocks -/

theorem filter_blocks_perm {α : Type} (f : α → Nat) (K : Nat) : ∀ l : List α, (∀ x ∈ l, f x < K) →
    (((List.range K).map fun b => l.filter fun x => f x == b).flatten).Perm l := by
  induction K with
  | zero =>
    intro l h
    cases l with
    | nil => simp
    | cons a l => exact absurd (h a (by simp)) (by omega)
  | succ K ih =>
    intro l h
    rw [List.range_succ, List.map_append, List.flatten_append]
    have h1 := ih (l.filter fun x => decide (f x < K)) (fun x hx => by simpa using (List.mem_filter.1 hx).2)
    have h2 : ((List.range K).map fun b => (l.filter fun x => decide (f x < K)).filter fun x => f x == b) =
        (List.range K).map fun b => l.filter fun x => f x == b := by
      apply List.map_congr_left
      intro b hb
      rw [List.filter_filter]
      apply List.filter_congr
      intro x _
      have := List.mem_range.1 hb
      by_cases hx : f x = b
      · simp [hx, this]
      · simp [hx]
    rw [h2] at h1
    have h3 : (l.filter fun x => f x == K) = l.filter fun x => !decide (f x < K) := by
      apply List.filter_congr
      intro x hx
      have := h x hx
      by_cases hx : f x = K
      · simp [hx]
      · have h1 : (f x == K) = false := by simpa using hx
        have h2 : decide (f x < K) = true := by simp; omega
        rw [h1, h2]; rfl
    rw [List.map_singleton, List.flatten_singleton, h3]
    exact (h1.append_right _).trans (List.filter_append_perm _ l)

theorem blocksOf_perm {K : Nat} {block : Nat → Nat} {nodes : List Nm} (h : ∀ i < nodes.length, block i < K) :
    (blocksOf K block nodes).flatten.Perm nodes := by
  have h1 := filter_blocks_perm (fun p : Nm × Nat => block p.2) K nodes.zipIdx (fun p hp => by
    refine h _ ?_
    have := List.snd_lt_of_mem_zipIdx hp
    simpa using this)
  have h2 := h1.map Prod.fst
  rw [List.map_flatten, List.map_map, List.zipIdx_map_fst] at h2
  exact h2

/-! ## The order -/

/-- What a (recursive) call of `_order_by_params` gives. -/
def KhpGood (r : Option (List OrderStep × Int)) (ns : List Nm) (k : Int) : Prop :=
  ∃ init xs k', r = some (init ++ [(xs, .str "#")], k') ∧ KhpRun ns k k' init xs ∧ xs ≠ [] ∧ (2 ≤ ns.length → 2 ≤ xs.length)

theorem khpParts_spec (cutoff bound : Nat) {rec : Tanner → List Nm → Int → Option (List OrderStep × Int)}
    (hrec : ∀ g ns k, ns.length < bound → ns ≠ [] → g.length = ns.length + 1 → ns.Nodup → (∀ j, k ≤ j → freshName j ∉ ns) →
      KhpGood (rec g ns k) ns k) :
    ∀ (ps : List (List Nm)) (g : Tanner) (nodes others : List Nm) (k : Int), (∀ p ∈ ps, p.length < bound) →
      nodes.Nodup → nodes.Perm (ps.flatten ++ others) → g.length = nodes.length + 1 →
      (∀ j, k ≤ j → freshName j ∉ nodes) →
      ∃ o names k', khpParts cutoff rec ps g nodes k = some (o, names, k') ∧ KhpRun ps.flatten k k' o names ∧
        names.length = (ps.filter fun p => !p.isEmpty).length := by
  intro ps
  induction ps with
  | nil =>
    intro g nodes others k _ _ _ _ _
    exact ⟨[], [], k, rfl, KhpRun.nil _ _, rfl⟩
  | cons p ps ih =>
    intro g nodes others k hb hn hp hg hf
    match p, hb, hp with
    | [], hb, hp =>
      obtain ⟨o, names, k', h1, h2, h3⟩ := ih g nodes others k (fun q hq => hb q (List.mem_cons_of_mem _ hq)) hn (by simpa using hp) hg hf
      exact ⟨o, names, k', h1, by simpa using h2, by simpa using h3⟩
    | [x], hb, hp =>
      obtain ⟨o, names, k', h1, h2, h3⟩ := ih g nodes (x :: others) k (fun q hq => hb q (List.mem_cons_of_mem _ hq)) hn
        (hp.trans (by simpa using List.perm_middle.symm)) hg hf
      refine ⟨o, x :: names, k', ?_, ?_, ?_⟩
      · rw [khpParts, h1]
      · have hx : x ∈ nodes := hp.symm.subset (by simp)
        have := (KhpRun.nil [x] k).both h2 (fun j h1 h2 => by omega) (fun y hy j hj hc => by
          rw [List.mem_singleton] at hy
          subst hy
          exact hf j hj (hc ▸ hx))
        simpa using this
      · simpa using h3
    | x :: y :: p, hb, hp =>
      rw [List.flatten_cons, List.append_assoc] at hp
      generalize hxy : x :: y :: p = q at hb hp
      have hq2 : 2 ≤ q.length := by rw [← hxy]; simp
      have hqn : ∀ z ∈ q, z ∈ nodes := fun z hz => hp.symm.subset (List.mem_append_left _ hz)
      have hqd : q.Nodup := (List.nodup_append'.1 (hp.nodup_iff.1 hn)).1
      obtain ⟨inner, g', nodes', e1, e2, e3, e4⟩ := Tanner.sub_ok hn hp hg (freshName k)
      have hnd' : nodes'.Nodup := by
        rw [e3.nodup_iff]
        refine List.Nodup.append (List.nodup_append'.1 (hp.nodup_iff.1 hn)).2.1 (List.nodup_singleton _) fun z hz hz' => ?_
        rw [List.mem_singleton] at hz'
        subst hz'
        exact hf k le_rfl (hp.symm.subset (List.mem_append_right _ hz))
      have hpart : ∃ o k1, khpPart cutoff rec inner q k = some (o, k1) ∧ k < k1 ∧ KhpRun q k k1 o [freshName k] := by
        unfold khpPart
        split
        · obtain ⟨init, xs, k1, h1, h2, h3, h4⟩ := hrec inner q (k + 1) (hb q List.mem_cons_self)
            (by rintro rfl; simp at hq2) e2 hqd (fun j hj hc => hf j (by omega) (hqn _ hc))
          rw [h1]
          dsimp only
          rw [setLastName_append]
          exact ⟨_, _, rfl, by have := h2.le; omega, h2.close (h4 hq2)⟩
        · exact ⟨_, _, rfl, by omega, (KhpRun.nil q (k + 1)).close hq2⟩
      obtain ⟨o, k1, f1, f2, f3⟩ := hpart
      obtain ⟨o', names, k', h1, h2, h3⟩ := ih g' nodes' (others ++ [freshName k]) k1
        (fun q' hq' => hb q' (List.mem_cons_of_mem _ hq')) hnd' (by rw [← List.append_assoc]; exact e3) e4 (fun j hj hc => by
          rcases List.mem_append.1 (e3.subset hc) with hc | hc
          · exact hf j (by omega) (hp.symm.subset (List.mem_append_right _ hc))
          · rw [List.mem_singleton] at hc
            have := freshName_inj hc
            omega)
      refine ⟨o ++ o', freshName k :: names, k', ?_, ?_, ?_⟩
      · rw [← hxy, khpParts, hxy, e1]
        dsimp only
        rw [if_neg (by omega), f1]
        dsimp only
        rw [h1]
      · have := f3.both h2 (fun j hj hj' hc => hf j hj (hp.symm.subset (List.mem_append_right _ (List.mem_append_left _ hc))))
          (fun z hz j hj hc => by
            rw [List.mem_singleton] at hz
            subst hz
            have := freshName_inj hc
            omega)
        rw [List.flatten_cons]
        exact this
      · rw [List.length_cons, h3, List.filter_cons, if_pos (by rw [← hxy]; rfl), List.length_cons]

/-- `_order_by_params`: whatever the partitioner does, the steps contract the nodes to one tensor. -/
theorem khpOrder_spec {part : Bool → Tanner → Nat → Nat} {K : Nat} (hpart : ∀ top g i, part top g i < K) (cutoff : Nat) :
    ∀ (fuel : Nat) (top : Bool) (g : Tanner) (ns : List Nm) (k : Int), ns.length ≤ fuel → ns ≠ [] → g.length = ns.length + 1 →
      ns.Nodup → (∀ j, k ≤ j → freshName j ∉ ns) → KhpGood (khpOrder part K cutoff fuel top g ns k) ns k := by
  intro fuel
  induction fuel with
  | zero =>
    intro top g ns k hl hne
    exact absurd (List.length_pos_of_ne_nil hne) (by omega)
  | succ fuel ih =>
    intro top g ns k hl hne hg hn hf
    have hwhole : KhpGood (some ([(ns, Nm.str "#")], k)) ns k := ⟨[], ns, k, rfl, KhpRun.nil _ _, hne, id⟩
    rw [khpOrder]
    dsimp only
    split
    · exact hwhole
    rw [if_neg (by rw [Tanner.refresh_length, hg]; omega)]
    rw [if_neg (by
      rw [List.any_eq_true]
      rintro ⟨i, _, h⟩
      have := hpart top g.refresh i
      simp only [decide_eq_true_eq] at h
      omega)]
    split
    · exact hwhole
    next hany =>
    have hblk := blocksOf_perm (K := K) (block := part top g.refresh) (nodes := ns) (fun i _ => hpart _ _ _)
    generalize hbs : blocksOf K (part top g.refresh) ns = bs at hany hblk
    have hsort := List.perm_insertionSort (fun a b : List Nm => b.length ≤ a.length) bs
    generalize hss : bs.insertionSort (fun a b => b.length ≤ a.length) = ps at hsort
    have hfl : ps.flatten.Perm ns := hsort.flatten.trans hblk
    have hlt : ∀ p ∈ ps, p.length < ns.length := by
      intro p hp
      have h1 : p ∈ bs := hsort.subset hp
      have h2 : p.length ≤ ns.length := by
        rw [← hblk.length_eq]
        exact (List.sublist_flatten_of_mem h1).length_le
      have h3 : p.length ≠ ns.length := fun hc => hany (List.any_eq_true.2 ⟨p, h1, by simpa using hc⟩)
      omega
    obtain ⟨o, names, k', h1, h2, h3⟩ := khpParts_spec cutoff ns.length (rec := khpOrder part K cutoff fuel false)
      (fun g' ns' k' h1 h2 h3 h4 h5 => ih false g' ns' k' (by omega) h2 h3 h4 h5) ps g.refresh ns [] k hlt hn
      (by rw [List.append_nil]; exact hfl.symm) (by rw [Tanner.refresh_length, hg]) hf
    rw [h1]
    have htwo : 2 ≤ names.length := by
      rw [h3]
      by_contra hc
      have h4 : (ps.filter fun p => !p.isEmpty).flatten = ps.flatten := by
        clear h1 h2 h3 hlt hfl hsort hss hc
        induction ps with
        | nil => rfl
        | cons p ps ih =>
          cases p with
          | nil => simpa using ih
          | cons a p => simp [ih]
      match h5 : ps.filter fun p => !p.isEmpty, hc with
      | [], _ =>
        rw [h5] at h4
        have := hfl.length_eq
        rw [← h4] at this
        exact hne (List.length_eq_zero_iff.1 this.symm)
      | [q], _ =>
        rw [h5] at h4
        have h6 : q ∈ ps := by
          have : q ∈ ps.filter fun p => !p.isEmpty := by rw [h5]; simp
          exact (List.mem_filter.1 this).1
        have := hfl.length_eq
        rw [← h4] at this
        simp at this
        have := hlt q h6
        omega
      | _ :: _ :: _, hc => rw [h5] at hc; simp at hc
    exact ⟨o, names, k', rfl, h2.permL hfl, by rintro rfl; simp at htwo, fun _ => htwo⟩

end Verif
