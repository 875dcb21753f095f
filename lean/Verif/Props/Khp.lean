import Verif.Lemmas.KhpSimplify
import Verif.Props.Orders
/-!
# C56: the orders of the hypergraph order finder
-/

namespace Verif

variable {τ : Type}

/-! ## Simplifying -/

/-- The edges a node lies on. -/
def TN.legSet (tn : TN τ) (n : Nm) : Finset Nm := (tn.adjOfNode n).toFinset

/-- The edges two nodes lie on, without those that join just these two. -/
def TN.mergedSet (tn : TN τ) (a b : Nm) : Finset Nm :=
  (tn.legSet a ∪ tn.legSet b).filter fun e => ¬ (e ∈ tn.legSet a ∧ e ∈ tn.legSet b ∧ (tn.adjOfEdge e).length = 2)

theorem TN.shrinks_iff {tn : TN τ} (hc : tn.Consistent) (a b : Nm) :
    tn.shrinks (a, b) = true ↔ (tn.mergedSet a b).card ≤ max (tn.legSet a).card (tn.legSet b).card := by
  unfold TN.shrinks TN.mergedSet TN.legSet
  have ha := hc.adjOfNode_nodup a
  have hb := hc.adjOfNode_nodup b
  dsimp only
  generalize tn.adjOfNode a = s0 at ha
  generalize tn.adjOfNode b = s1 at hb
  rw [decide_eq_true_eq, List.toFinset_card_of_nodup ha, List.toFinset_card_of_nodup hb]
  have hu : (s0.toFinset ∪ s1.toFinset) = (s0 ++ s1.filter fun e => !(s0.contains e)).toFinset := by
    ext x
    simp only [Finset.mem_union, List.mem_toFinset, List.mem_append, List.mem_filter, List.contains_eq_mem]
    by_cases h : x ∈ s0 <;> simp [h]
  have hun : (s0 ++ s1.filter fun e => !(s0.contains e)).Nodup :=
    List.Nodup.append ha (hb.filter _) fun x hx hx' => by
      have := (List.mem_filter.1 hx').2
      simp [hx] at this
  have hcard : (s0.toFinset ∪ s1.toFinset).card = (s0 ++ s1.filter fun e => !(s0.contains e)).length := by
    rw [hu, List.toFinset_card_of_nodup hun]
  have hg : ((s0.toFinset ∪ s1.toFinset).filter fun e =>
      e ∈ s0.toFinset ∧ e ∈ s1.toFinset ∧ (tn.adjOfEdge e).length = 2).card =
      (s0.filter fun e => s1.contains e && (tn.adjOfEdge e).length == 2).length := by
    rw [← List.toFinset_card_of_nodup (ha.filter _)]
    congr 1
    ext x
    simp only [Finset.mem_filter, Finset.mem_union, List.mem_toFinset, List.mem_filter, List.contains_eq_mem,
      Bool.and_eq_true, decide_eq_true_eq, beq_iff_eq]
    tauto
  have hsum := Finset.card_filter_add_card_filter_not (s := s0.toFinset ∪ s1.toFinset) (fun e =>
      e ∈ s0.toFinset ∧ e ∈ s1.toFinset ∧ (tn.adjOfEdge e).length = 2)
  rw [hg, hcard] at hsum
  rw [← hsum]
  omega

/-- C56, `_simplify`: on a consistent network the steps are pairwise, turn the nodes of the network into those of the
network left, and give each result a new name; and the network left has no two neighbours that can be merged without a
tensor of more legs than the larger of the two. -/
theorem c56_simplify [NetTensor τ] {tn small : TN τ} {o : List OrderStep} {k : Int} (hc : tn.Consistent)
    (h2 : ∀ j : Int, 0 < j → Nm.pair (.str "#") (.int j) ∉ tn.nodes.keys)
    (h : khpSimplify tn.nodes.length tn 0 = some (small, o, k)) :
    small.Consistent ∧ Pairwise2 o ∧ Runs tn.nodes.keys o small.nodes.keys ∧ SingleAssignment tn.nodes.keys o ∧
      ∀ a b e, a ≠ b → (a, e) ∈ small.adj → (b, e) ∈ small.adj →
        max (small.legSet a).card (small.legSet b).card < (small.mergedSet a b).card := by
  obtain ⟨c1, _, c3, c4, c5, _, _, _, c9⟩ := khpSimplify_spec _ hc
    (fun j hj hm => h2 (j + 1) (by omega) (by simpa [freshName] using hm)) h
  refine ⟨c1, c4, c5, ?_, fun a b e hab ha hb => ?_⟩
  · unfold SingleAssignment
    rw [c3]
    refine List.Nodup.append hc.nodes_nodup (freshNames_nodup _ _) fun x hx hx' => ?_
    obtain ⟨j, hj, _, rfl⟩ := mem_freshNames hx'
    exact h2 (j + 1) (by omega) (by simpa [freshName] using hx)
  · have hsym : small.mergedSet b a = small.mergedSet a b := by
      unfold TN.mergedSet
      rw [Finset.union_comm]
      refine Finset.filter_congr fun x _ => ?_
      tauto
    have hl : tn.nodes.keys.length ≤ tn.nodes.length := by simp [Dict.keys]
    rcases TN.mergeable_none c1 (c9 hl) hab ha hb with h3 | h3
    · have := (TN.shrinks_iff c1 a b).not.1 (by simp [h3])
      omega
    · have := (TN.shrinks_iff c1 b a).not.1 (by simp [h3])
      rw [hsym] at this
      omega

/-- C56, `_simplify` and `simplify`: with known dimensions and no fixed edge it succeeds, and the network left has the
value of the original one. -/
theorem c56_simplify_value {R : Type} [CommSemiring R] [NetTensor τ] {val : τ → List Nat → R}
    (hval : ∀ t : TN τ, val (NetTensor.ofNet t) = t.value val) {tn : TN τ} (hc : tn.Consistent) (hr : tn.Ready)
    (hx : ∀ e r, tn.edges.get? e = some r → r.fix = none)
    (h2 : ∀ j : Int, 0 < j → Nm.pair (.str "#") (.int j) ∉ tn.nodes.keys) :
    ∃ small o k, khpSimplify tn.nodes.length tn 0 = some (small, o, k) ∧
      ∀ idx, small.value val idx = tn.value val idx := by
  obtain ⟨⟨small, o, k⟩, h⟩ := khpSimplify_total tn.nodes.length tn 0 hc hr hx
    (fun j hj hm => h2 (j + 1) (by omega) (by simpa [freshName] using hm))
  exact ⟨small, o, k, h, (khpSimplify_value hval _ hc hr hx h).2.2⟩

/-- C56, the method `simplify` of networks: it keeps the value, and no two neighbours are left that can be merged
without a tensor of more legs than the larger of the two. -/
theorem c56_simplify_method {R : Type} [CommSemiring R] [NetTensor τ] {val : τ → List Nat → R}
    (hval : ∀ t : TN τ, val (NetTensor.ofNet t) = t.value val) {tn : TN τ} (hc : tn.Consistent) (hr : tn.Ready)
    (hx : ∀ e r, tn.edges.get? e = some r → r.fix = none) {ident : Nat → Nm} (hi : ∀ i j, ident i = ident j → i = j)
    (hid : ∀ j, ident j ∉ tn.nodes.keys) :
    ∃ small, tn.simplify ident tn.nodes.length 0 = some small ∧ (∀ idx, small.value val idx = tn.value val idx) ∧
      ∀ a b e, a ≠ b → (a, e) ∈ small.adj → (b, e) ∈ small.adj →
        max (small.legSet a).card (small.legSet b).card < (small.mergedSet a b).card := by
  obtain ⟨small, h1, h2, h3, _, h5⟩ := TN.simplify_value hval hi tn.nodes.length 0 hc hr hx fun j _ => hid j
  refine ⟨small, h1, h3, fun a b e hab ha hb => ?_⟩
  have hsym : small.mergedSet b a = small.mergedSet a b := by
    unfold TN.mergedSet
    rw [Finset.union_comm]
    refine Finset.filter_congr fun x _ => ?_
    tauto
  rcases TN.mergeable_none h2 (h5 (by simp [Dict.keys])) hab ha hb with h3 | h3
  · have := (TN.shrinks_iff h2 a b).not.1 (by simp [h3])
    omega
  · have := (TN.shrinks_iff h2 b a).not.1 (by simp [h3])
    rw [hsym] at this
    omega

/-! ## The matrix -/

theorem dropWhile_reverse_last {α : Type} (p : α → Bool) (l : List α) :
    (l.reverse.dropWhile p).reverse = [] ∨ ∃ init x, (l.reverse.dropWhile p).reverse = init ++ [x] ∧ p x = false := by
  generalize l.reverse = m
  cases h : m.dropWhile p with
  | nil => exact Or.inl rfl
  | cons x t =>
    refine Or.inr ⟨t.reverse, x, by simp, ?_⟩
    have := List.head?_dropWhile_not p m
    rw [h] at this
    simpa using this

/-- The matrix of a network: never more rows than nodes and the outside, and not without entries. -/
theorem TN.tanner_spec {tn : TN τ} {g : Tanner} {names : List Nm} (h : tn.tanner = some (g, names)) :
    names = tn.nodes.keys ∧ g.length ≤ tn.nodes.keys.length + 1 ∧ g.refresh.cols ≠ 0 := by
  unfold TN.tanner at h
  dsimp only at h
  split at h
  · simp at h
  next hne =>
  simp only [Option.some.injEq, Prod.mk.injEq] at h
  obtain ⟨h1, rfl⟩ := h
  generalize hes : (tn.openE.filter fun e => ((tn.edges.get? e).bind EdgeRec.fix).isNone) ++
    (tn.edges.keys.filter tn.isClosed).filter (fun e => ((tn.edges.get? e).bind EdgeRec.fix).isNone) = es at h1 hne
  generalize hrows : ((es.map fun e => tn.openE.contains e) :: tn.nodes.map fun q => es.zipIdx.map fun p =>
    q.2.legs.contains p.1 && es.idxOf p.1 == p.2) = rows at h1 hne
  have hlen : ∀ r ∈ rows, r.length = es.length := by
    rw [← hrows]
    intro r hr
    rcases List.mem_cons.1 hr with rfl | hr
    · simp
    · obtain ⟨q, _, rfl⟩ := List.mem_map.1 hr
      simp
  have hpre : g <+: rows := by
    rw [← h1]
    have := List.dropWhile_suffix (fun r : List Bool => !(r.any id)) (l := rows.reverse)
    simpa using List.reverse_prefix.2 this
  refine ⟨rfl, ?_, ?_⟩
  · have := hpre.length_le
    rw [← hrows] at this
    simpa [Dict.keys] using this
  · rcases dropWhile_reverse_last (fun r : List Bool => !(r.any id)) rows with h2 | ⟨init, x, h2, h3⟩
    · exact absurd h2 hne
    · rw [h1] at h2
      have hx : x ∈ g := by rw [h2]; simp
      have h4 : ∃ b ∈ x, b = true := by simpa using h3
      obtain ⟨b, hb, rfl⟩ := h4
      obtain ⟨j, hj, hjb⟩ := List.getElem_of_mem hb
      have hcols : g.cols = es.length := by
        unfold Tanner.cols
        rw [h2] at hpre ⊢
        cases init with
        | nil => exact hlen _ (hpre.subset (by simp))
        | cons y init => exact hlen _ (hpre.subset (by simp))
      have hxl : x.length = es.length := hlen _ (hpre.subset hx)
      have hkeep : j ∈ (List.range g.cols).filter fun j => g.any fun r => r.getD j false := by
        rw [List.mem_filter, List.mem_range, List.any_eq_true]
        refine ⟨by omega, x, hx, ?_⟩
        rw [List.getD_eq_getElem?_getD, List.getElem?_eq_getElem hj, hjb]
        rfl
      have hg : g ≠ [] := by rintro rfl; simp at hx
      obtain ⟨r0, g0, rfl⟩ := List.exists_cons_of_ne_nil hg
      intro hz
      unfold Tanner.cols Tanner.refresh at hz
      simp only [List.map_cons, List.headD_cons, List.length_map, List.length_eq_zero_iff] at hz
      change List.filter (fun j => List.any (r0 :: g0) fun r => r.getD j false) (List.range (Tanner.cols (r0 :: g0))) = [] at hz
      rw [hz] at hkeep
      simp at hkeep

/-! ## One query -/

theorem validOrder_one {ns : List Nm} {o : List OrderStep} {last : Nm} (h : ValidOrder ns o last) (h1 : ns.length = 1) :
    ∀ s ∈ o, s.1.length = 1 := by
  induction h with
  | done => simp
  | @step ns xs rest z last o e1 e2 _ _ ih =>
    have hl := e1.length_eq
    rw [List.length_append, h1] at hl
    have := List.length_pos_of_ne_nil e2
    intro s hs
    rcases List.mem_cons.1 hs with rfl | hs
    · show xs.length = 1
      omega
    · exact ih (by rw [List.length_cons]; omega) s hs

theorem khpQuery_spec {part : Bool → Tanner → Nat → Nat} {K : Nat} (hpart : ∀ top g i, part top g i < K) {cutoff : Nat}
    {path : OrderStep → List (List Nat)} (hp : GoodPaths path) {tn : TN τ} {k : Int} {o : List OrderStep} (hn : tn.nodes.keys.Nodup)
    (hf : ∀ j, k ≤ j → freshName j ∉ tn.nodes.keys) (h : khpQuery part K cutoff path tn k = some o) :
    ValidOrder tn.nodes.keys o (.str "#") ∧ (∀ s ∈ o, s.1.length ≤ 2) ∧ (2 ≤ tn.nodes.keys.length → Pairwise2 o) ∧ o ≠ [] ∧
      ∃ js : List Int, (o.map (·.2)).Perm (.str "#" :: js.map freshName) ∧ js.Nodup ∧
        (∀ j ∈ js, ∀ i, freshName i ∈ tn.nodes.keys → i < j) ∧ (0 ≤ k → ∀ j ∈ js, 0 ≤ j) := by
  unfold khpQuery at h
  split at h
  · simp at h
  next g nodes ht =>
  obtain ⟨rfl, hg, hcol⟩ := TN.tanner_spec ht
  split at h
  · simp at h
  next oo k' ho =>
  have hne : tn.nodes.keys ≠ [] := by
    intro hc
    rw [hc] at ho
    simp [khpOrder] at ho
  have hg' : g.length = tn.nodes.keys.length + 1 := by
    by_contra hc
    obtain ⟨m, hm⟩ : ∃ m, tn.nodes.keys.length = m + 1 := ⟨_, (Nat.succ_pred_eq_of_pos (List.length_pos_of_ne_nil hne)).symm⟩
    rw [hm, khpOrder] at ho
    dsimp only at ho
    rw [if_neg hcol, Tanner.refresh_length, if_pos (by omega)] at ho
    simp at ho
  obtain ⟨init, xs, k2, e1, e2, e3, e4⟩ := khpOrder_spec hpart cutoff tn.nodes.keys.length true g tn.nodes.keys k le_rfl hne hg' hn hf
  rw [ho, Option.some.injEq, Prod.mk.injEq] at e1
  obtain ⟨rfl, rfl⟩ := e1
  have hrun := e2.run [] (by simp)
  rw [List.append_nil, List.append_nil] at hrun
  have hv : ValidOrder tn.nodes.keys (init ++ [(xs, .str "#")]) (.str "#") :=
    validOrder_iff.2 (hrun.append (.cons (rest := []) (by simp) e3 (by simp) (.nil (List.Perm.refl _))))
  obtain ⟨js, n1, n2, n3⟩ := e2.names
  obtain ⟨o', js', f1, f2, f3, f4, f5, f6, f7, f8⟩ := resolveLoop_spec hv
    (fun s hm => ⟨(hp s (hv.ops_ne s hm)).1, (hp s (hv.ops_ne s hm)).2.1⟩) (counterStart (init ++ [(xs, .str "#")]))
    (fun x hx j hj => counterStart_fresh hx hj)
  have hoo : o' = o := by
    have : resolveOrder path (init ++ [(xs, .str "#")]) = some o' := f1
    rw [this] at h
    exact Option.some.inj h
  subst hoo
  have hbal := (validOrder_iff.1 hv).balance
  have hused := hv.live_used (by simp)
  have hbig : ∀ x ∈ (init ++ [(xs, Nm.str "#")]).flatMap (·.1), ∀ i, freshName i = x → ∀ j ∈ js', i < j := by
    intro x hx i hi j hj
    by_contra hc
    have h9 := f6 j hj
    exact counterStart_fresh hx (j := i) (by omega) hi
  refine ⟨f2, f3, fun h2 => f4 ?_, f8 (by simp), js ++ js', ?_, ?_, ?_, ?_⟩
  · intro s hs p hpm
    refine (hp s (hv.ops_ne s hs)).2.2 ?_ p hpm
    rcases List.mem_append.1 hs with hs | hs
    · exact e2.two s hs
    · rw [List.mem_singleton] at hs
      subst hs
      exact e4 h2
  · refine f7.trans ?_
    rw [List.map_append, n1, List.map_append, List.map_singleton]
    refine List.Perm.trans (List.Perm.append_right _ (List.perm_append_singleton _ _)) ?_
    exact List.Perm.refl _
  · refine List.Nodup.append n2 f5 fun j hj hj' => ?_
    have hmem : freshName j ∈ (init ++ [(xs, Nm.str "#")]).flatMap (·.1) := by
      have : freshName j ∈ tn.nodes.keys ++ (init ++ [(xs, Nm.str "#")]).map (·.2) := by
        rw [List.map_append, n1]
        simp only [List.mem_append, List.mem_map]
        exact Or.inr (Or.inl ⟨j, hj, rfl⟩)
      have := hbal.symm.subset this
      rcases List.mem_append.1 this with h9 | h9
      · exact h9
      · simp [freshName, Nm.pair] at h9
    exact absurd (hbig _ hmem j rfl j hj') (by omega)
  · intro j hj i hi
    rcases List.mem_append.1 hj with hj | hj
    · by_contra hc
      have := n3 j hj
      exact hf i (by omega) hi
    · exact hbig _ (hused _ hi) i rfl j hj
  · intro hk j hj
    rcases List.mem_append.1 hj with hj | hj
    · have := n3 j hj
      omega
    · refine le_trans ?_ (f6 j hj)
      exact (foldl_max_ge _ 0).1

theorem firstMin_mem {α : Type} {cost : α → Nat} : ∀ {l : List α} {x : α}, firstMin cost l = some x → x ∈ l ∧ ∀ y ∈ l, cost x ≤ cost y := by
  intro l
  induction l with
  | nil => simp [firstMin]
  | cons a l ih =>
    intro x h
    rw [firstMin] at h
    split at h
    · next hl =>
      cases h
      cases l with
      | nil => simp
      | cons b l =>
        rw [firstMin] at hl
        split at hl
        · simp at hl
        · split at hl <;> simp at hl
    · next y hy =>
      obtain ⟨h1, h2⟩ := ih hy
      split at h
      · next hle =>
        cases h
        exact ⟨by simp, fun z hz => by
          rcases List.mem_cons.1 hz with rfl | hz
          · exact le_rfl
          · exact hle.trans (h2 z hz)⟩
      · next hle =>
        cases h
        exact ⟨by simp [h1], fun z hz => by
          rcases List.mem_cons.1 hz with rfl | hz
          · omega
          · exact h2 z hz⟩

theorem fixAll_keys {tn : TN τ} (hc : tn.Consistent) : tn.fixAll.nodes.keys = tn.nodes.keys := by
  have h := congrArg (List.map Prod.fst) (TN.fixAll_spec hc).1
  rw [List.map_map, List.map_map] at h
  exact h

/-! ## The whole search -/

/-- C56: whatever the partitioner, the path finder and the costs are, an order the hypergraph order finder gives is
valid for the nodes of the network, ends in `'#'`, gives no name twice and has steps of one or two operands; it is
pairwise if the simplified network has two nodes or more, and otherwise pairwise up to a tail of one-operand steps.
It is the cheapest of those the ten queries give.  Node names `('#', j)` with `j > 0` are excluded.

Full statement: pairwise always; that is false, see `c56_single_violated`. -/
theorem c56_order_partial [NetTensor τ] {part : Nat → Bool → Tanner → Nat → Nat}
    (hpart : ∀ s top g i, part s top g i < s / 2 + 3) {cutoff : Nat} {path : OrderStep → List (List Nat)} (hp : GoodPaths path)
    {cost : List OrderStep → Nat} {tn : TN τ} {o : List OrderStep} (hc : tn.Consistent) (h1 : .str "#" ∉ tn.nodes.keys)
    (h2 : ∀ j : Int, 0 < j → Nm.pair (.str "#") (.int j) ∉ tn.nodes.keys) (h : khpFind part cutoff path cost tn = some o) :
    ValidOrder tn.nodes.keys o (.str "#") ∧ SingleAssignment tn.nodes.keys o ∧
      ∃ small init k rest, khpSimplify tn.nodes.length tn.fixAll 0 = some (small, init, k) ∧ o = init ++ rest ∧ rest ≠ [] ∧ Pairwise2 init ∧
        (2 ≤ small.nodes.length → Pairwise2 o) ∧ (small.nodes.length = 1 → ∀ s ∈ rest, s.1.length = 1) ∧
        ∀ s < 10, ∃ q, khpQuery (part s) (s / 2 + 3) cutoff path small k = some q ∧ cost rest ≤ cost q := by
  unfold khpFind at h
  split at h
  · simp at h
  next small init k hs =>
  split at h
  · simp at h
  next reses hq =>
  obtain ⟨rest, hm, rfl⟩ := Option.map_eq_some_iff.1 h
  obtain ⟨hmem, hmin⟩ := firstMin_mem hm
  have hkeys := fixAll_keys hc
  obtain ⟨c1, c2, c3, c4, c5, c6, c7, c8, c9⟩ := khpSimplify_spec _ (TN.fixAll_spec hc).2.2.2
    (fun j hj hm => h2 (j + 1) (by omega) (by rw [hkeys] at hm; simpa [freshName] using hm)) hs
  rw [hkeys] at c5
  have hall : ∀ s < 10, ∃ q ∈ reses, khpQuery (part s) (s / 2 + 3) cutoff path small k = some q := by
    intro s hs
    have hsr : s ∈ List.range 10 := List.mem_range.2 hs
    clear hm hmem hmin h
    generalize List.range 10 = l at hq hsr
    induction l generalizing reses with
    | nil => simp at hsr
    | cons a l ih =>
      rw [List.mapM_cons] at hq
      simp only [Option.bind_eq_bind, Option.bind_eq_some_iff, Option.pure_def, Option.some.injEq] at hq
      obtain ⟨q, hq1, qs, hq2, rfl⟩ := hq
      rcases List.mem_cons.1 hsr with rfl | hsr
      · exact ⟨q, by simp, hq1⟩
      · obtain ⟨q', m1, m2⟩ := ih qs hq2 hsr
        exact ⟨q', by simp [m1], m2⟩
  have hget : ∃ s, khpQuery (part s) (s / 2 + 3) cutoff path small k = some rest := by
    clear hm hmin hall h
    generalize List.range 10 = l at hq
    induction l generalizing reses with
    | nil =>
      simp only [List.mapM_nil, Option.pure_def, Option.some.injEq] at hq
      subst hq
      simp at hmem
    | cons a l ih =>
      rw [List.mapM_cons] at hq
      simp only [Option.bind_eq_bind, Option.bind_eq_some_iff, Option.pure_def, Option.some.injEq] at hq
      obtain ⟨q, hq1, qs, hq2, rfl⟩ := hq
      rcases List.mem_cons.1 hmem with rfl | hmem
      · exact ⟨a, hq1⟩
      · exact ih qs hmem hq2
  obtain ⟨s, hsq⟩ := hget
  obtain ⟨d1, d2, d3, d4, js, d5, d6, d7, d8⟩ := khpQuery_spec (hpart s) hp c1.nodes_nodup c8 hsq
  have hll : small.nodes.keys.length = small.nodes.length := by simp [Dict.keys]
  refine ⟨validOrder_iff.2 (c5.append (validOrder_iff.1 d1)), ?_, small, init, k, rest, hs, rfl, d4, c4, ?_, ?_, ?_⟩
  · unfold SingleAssignment
    rw [List.map_append, c3]
    have hlast : ∀ i : Int, 0 ≤ i → i < k → ∀ j ∈ js, i < j := by
      intro i hi hik j hj
      have hne : init ≠ [] := by
        rintro rfl
        simp at c2
        omega
      have := d7 j hj _ (c7 hne)
      omega
    have hnod : (freshNames 0 init.length ++ rest.map (·.2)).Nodup := by
      rw [(d5.append_left _).nodup_iff, List.perm_middle.nodup_iff, List.nodup_cons, List.mem_append, not_or]
      refine ⟨⟨fun hc => ?_, fun hc => ?_⟩, List.Nodup.append (freshNames_nodup _ _) (d6.map fun a b => freshName_inj) fun x hx hx' => ?_⟩
      · obtain ⟨j, _, _, h⟩ := mem_freshNames hc
        simp [freshName, Nm.pair] at h
      · obtain ⟨j, _, h⟩ := List.mem_map.1 hc
        simp [freshName, Nm.pair] at h
      · obtain ⟨i, hi1, hi2, rfl⟩ := mem_freshNames hx
        obtain ⟨j, hj, hji⟩ := List.mem_map.1 hx'
        have := freshName_inj hji
        have := hlast i hi1 (by omega) j hj
        omega
    refine List.Nodup.append hc.nodes_nodup hnod fun x hx hx' => ?_
    have hfr : ∀ i : Int, 0 ≤ i → freshName i ∉ tn.nodes.keys := fun i hi hm =>
      h2 (i + 1) (by omega) (by simpa [freshName] using hm)
    rcases List.mem_append.1 hx' with hx' | hx'
    · obtain ⟨i, hi1, _, rfl⟩ := mem_freshNames hx'
      exact hfr i hi1 hx
    · rcases List.mem_cons.1 (d5.subset hx') with rfl | hx'
      · exact h1 hx
      · obtain ⟨j, hj, rfl⟩ := List.mem_map.1 hx'
        exact hfr j (d8 (by omega) j hj) hx
  · intro h2 s hs
    rcases List.mem_append.1 hs with hs | hs
    · exact c4 s hs
    · exact d3 (by omega) s hs
  · exact fun h1 => validOrder_one d1 (by omega)
  · intro s hs
    obtain ⟨q, m1, m2⟩ := hall s hs
    exact ⟨q, m2, hmin q m1⟩

theorem fixAll_noFix {tn : TN τ} (h : NoFix tn) : tn.fixAll = tn := by
  have key : ∀ l : List Nm, l.foldl TN.fix1 tn = tn := by
    intro l
    induction l with
    | nil => rfl
    | cons e l ih =>
      have : tn.fix1 e = tn := by
        unfold TN.fix1
        split
        · next d f he => exact absurd (h e _ he) (by simp)
        · rfl
      rw [List.foldl_cons, this, ih]
  exact key _

/-- When the last node has a leg, the matrix has a row for every node. -/
theorem TN.tanner_total {tn : TN τ} (hc : tn.Consistent) (hx : NoFix tn) {others : Dict Nm (NodeRec τ)} {n : Nm} {r : NodeRec τ}
    (hl : tn.nodes = others ++ [(n, r)]) (hr : r.legs ≠ []) :
    ∃ g, tn.tanner = some (g, tn.nodes.keys) ∧ g.length = tn.nodes.keys.length + 1 := by
  obtain ⟨e, legs, hel⟩ := List.exists_cons_of_ne_nil hr
  have hnr : tn.nodes.get? n = some r :=
    Dict.get?_of_mem hc.nodes_nodup (by rw [hl]; simp)
  have hek : e ∈ tn.edges.keys := hc.legs_exist n r hnr e (by rw [hel]; simp)
  have hfree : ∀ e, ((tn.edges.get? e).bind EdgeRec.fix).isNone = true := by
    intro e
    cases h : tn.edges.get? e with
    | none => rfl
    | some er => simp [hx e er h]
  unfold TN.tanner
  dsimp only
  generalize hes : (tn.openE.filter fun e => ((tn.edges.get? e).bind EdgeRec.fix).isNone) ++
    (tn.edges.keys.filter tn.isClosed).filter (fun e => ((tn.edges.get? e).bind EdgeRec.fix).isNone) = es
  have hee : e ∈ es := by
    rw [← hes, List.mem_append, List.mem_filter, List.mem_filter, List.mem_filter]
    by_cases ho : e ∈ tn.openE
    · exact Or.inl ⟨ho, hfree e⟩
    · refine Or.inr ⟨⟨hek, ?_⟩, hfree e⟩
      unfold TN.isClosed
      rw [Dict.has_iff.2 hek]
      simpa using ho
  have hrow : (!((es.zipIdx.map fun p => r.legs.contains p.1 && es.idxOf p.1 == p.2).any id)) = false := by
    rw [Bool.not_eq_false', List.any_eq_true]
    refine ⟨true, List.mem_map.2 ⟨(e, es.idxOf e), ?_, ?_⟩, rfl⟩
    · rw [List.mem_zipIdx_iff_getElem?]
      exact List.getElem?_eq_some_iff.2 ⟨List.idxOf_lt_length_of_mem hee, List.getElem_idxOf _⟩
    · simp [hel]
  rw [hl]
  simp only [List.map_append, List.map_cons, List.map_nil, List.reverse_cons, List.reverse_append, List.reverse_nil,
    List.nil_append, List.cons_append, List.dropWhile_cons, hrow, Bool.false_eq_true, if_false, List.reverse_reverse]
  exact ⟨_, rfl, by simp [Dict.keys]⟩

/-- C56: with known dimensions and no fixed edge the finder does give an order (valid by `c56_order_partial`), if the
last node left by the simplification has a leg.

Full statement: the same without the last hypothesis; that is false, see `c56_scalar_violated`. -/
theorem c56_found_partial [NetTensor τ] {part : Nat → Bool → Tanner → Nat → Nat}
    (hpart : ∀ s top g i, part s top g i < s / 2 + 3) {cutoff : Nat} {path : OrderStep → List (List Nat)} (hp : GoodPaths path)
    {cost : List OrderStep → Nat} {tn : TN τ} (hc : tn.Consistent) (hr : tn.Ready)
    (hx : ∀ e r, tn.edges.get? e = some r → r.fix = none)
    (h2 : ∀ j : Int, 0 < j → Nm.pair (.str "#") (.int j) ∉ tn.nodes.keys)
    (hlast : ∀ small o k, khpSimplify tn.nodes.length tn 0 = some (small, o, k) →
      ∃ others n r, small.nodes = others ++ [(n, r)] ∧ r.legs ≠ []) :
    ∃ o, khpFind part cutoff path cost tn = some o := by
  have hf : ∀ j : Int, 0 ≤ j → freshName j ∉ tn.nodes.keys := fun j hj hm =>
    h2 (j + 1) (by omega) (by simpa [freshName] using hm)
  obtain ⟨⟨small, init, k⟩, hs⟩ := khpSimplify_total tn.nodes.length tn 0 hc hr hx hf
  obtain ⟨others, n, r, hn, hleg⟩ := hlast _ _ _ hs
  obtain ⟨c1, _, _, _, _, _, _, c8, _⟩ := khpSimplify_spec _ hc hf hs
  have hx' : NoFix small := (khpSimplify_noFix _ hc hr hx hs)
  obtain ⟨g, hg, hgl⟩ := TN.tanner_total c1 hx' hn hleg
  have hq : ∀ s, ∃ q, khpQuery (part s) (s / 2 + 3) cutoff path small k = some q := by
    intro s
    obtain ⟨oi, xs, k2, e1, e2, e3, e4⟩ := khpOrder_spec (hpart s) cutoff small.nodes.keys.length true g small.nodes.keys k le_rfl
      (by rw [hn]; simp [Dict.keys]) hgl c1.nodes_nodup c8
    have hrun := e2.run [] (by simp)
    rw [List.append_nil, List.append_nil] at hrun
    have hv : ValidOrder small.nodes.keys (oi ++ [(xs, .str "#")]) (.str "#") :=
      validOrder_iff.2 (hrun.append (.cons (rest := []) (by simp) e3 (by simp) (.nil (List.Perm.refl _))))
    obtain ⟨o', _, f1, _⟩ := resolveLoop_spec hv
      (fun s hm => ⟨(hp s (hv.ops_ne s hm)).1, (hp s (hv.ops_ne s hm)).2.1⟩) (counterStart (oi ++ [(xs, .str "#")]))
      (fun x hx j hj => counterStart_fresh hx hj)
    refine ⟨o', ?_⟩
    unfold khpQuery
    rw [hg]
    dsimp only
    rw [e1]
    exact f1
  unfold khpFind
  rw [fixAll_noFix hx, hs]
  dsimp only
  have hm : ∀ l : List Nat, ∃ qs, (l.mapM fun s => khpQuery (part s) (s / 2 + 3) cutoff path small k) = some qs ∧ qs.length = l.length := by
    intro l
    induction l with
    | nil => exact ⟨[], rfl, rfl⟩
    | cons a l ih =>
      obtain ⟨qs, h1, h2⟩ := ih
      obtain ⟨q, h3⟩ := hq a
      exact ⟨q :: qs, by rw [List.mapM_cons, h3, h1]; rfl, by simp [h2]⟩
  obtain ⟨qs, h3, h4⟩ := hm (List.range 10)
  rw [h3]
  dsimp only
  cases qs with
  | nil => simp at h4
  | cons q qs =>
    rw [firstMin]
    split
    · exact ⟨_, rfl⟩
    · split
      · exact ⟨_, rfl⟩
      · exact ⟨_, rfl⟩

/-! ## Contracting along such an order -/

/-- C56 with C01: contracting along the order of the hypergraph order finder gives the Einstein sum, if there is such
an order and the simplification leaves two nodes or more.  Partial: as `c01_default_partial`. -/
theorem c56_contract_partial {R : Type} [CommSemiring R] [Star R] {L : Type} [AddCommMonoid L]
    {contract : TVal R → Option (Arr R)} {tn : TN (TVal R)} {srt : List Nm → List Nm} {E : Engine L R} {ex : L → R}
    {memory : Nat} (hE : E.Sound ex) (hsrt : ∀ l, (srt l).Perm l) (hC : Completable contract tn)
    (hF : ClosedFixOK tn) (h1 : .str "#" ∉ tn.nodes.keys) (h2 : ∀ j : Int, 0 < j → Nm.pair (.str "#") (.int j) ∉ tn.nodes.keys)
    {part : Nat → Bool → Tanner → Nat → Nat} (hpart : ∀ s top g i, part s top g i < s / 2 + 3) {cutoff : Nat}
    {path : OrderStep → List (List Nat)} (hp : GoodPaths path) {cost : List OrderStep → Nat}
    {width : TN (TVal R) → List OrderStep → Nat} (hw : ∀ t o, width t o * 3 * 2 ^ 4 ≤ memory * 2 ^ 30)
    (hfound : ∀ tn', tn.completeDelta = (tn', .ok ()) → ∃ o, khpFind part cutoff path cost tn' = some o ∧
      ∀ small init k, khpSimplify tn'.nodes.length tn'.fixAll 0 = some (small, init, k) → 2 ≤ small.nodes.length) :
    ∃ r, tn.contractWith contract memory (fun t => (khpFind part cutoff path cost t).map fun o => ⟨width t o, o, []⟩) srt E ex = .ok r ∧
      Represents TVal.val tn r := by
  refine c01_contract_partial hE hsrt hC hF fun tn' hd => ?_
  obtain ⟨tn2, h3, h4, _, _, _, _, _, _, _, h5, _⟩ := hC.complete
  rw [hd, Prod.mk.injEq] at h3
  obtain ⟨rfl, _⟩ := h3
  have h6 : .str "#" ∉ tn'.nodes.keys := fun hc => by
    rcases h5 _ hc with h | h | ⟨e, k, h⟩
    · exact h1 h
    · simp at h
    · simp [deltaNode, Nm.triple] at h
  have h7 : ∀ j : Int, 0 < j → Nm.pair (.str "#") (.int j) ∉ tn'.nodes.keys := fun j hj hc => by
    rcases h5 _ hc with h | h | ⟨e, k, h⟩
    · exact h2 j hj h
    · simp [Nm.pair] at h
    · simp [deltaNode, Nm.triple, Nm.pair] at h
  obtain ⟨o, ho, hsmall⟩ := hfound tn' hd
  obtain ⟨g1, _, small, init, k, rest, g2, _, _, _, g3, _⟩ := c56_order_partial hpart hp h4 h6 h7 ho
  refine ⟨⟨width tn' o, o, []⟩, by rw [ho]; rfl, ⟨Or.inr ⟨_, g1, g3 (hsmall _ _ _ g2)⟩, hw _ _⟩, sliceOK_nil⟩

/-! ## What goes wrong -/

/-- A matrix times a vector. -/
def khpOpen : List (Op Shp) :=
  [.addNode (some (.str "m")) (.int 0) (some [.str "i", .str "j"]) (shp [2, 2]) false,
   .addNode (some (.str "v")) (.int 1) (some [.str "j"]) (shp [2]) false, .openEdge (.str "i") none]

/-- The scalar product of two vectors. -/
def khpScalar : List (Op Shp) :=
  [.addNode (some (.str "u")) (.int 0) (some [.str "j"]) (shp [2]) false,
   .addNode (some (.str "v")) (.int 1) (some [.str "j"]) (shp [2]) false]

/-- A network that simplifies to one node: the order ends in a step with one operand, which the compiler cannot make a
path of (`IndexError`). -/
theorem c56_single_violated : ∃ tn o, TN.run {} khpOpen = some tn ∧
    khpFind (fun _ _ _ _ => 0) 6 firstTwo (fun _ => 0) tn = some o ∧
    o = [([.str "m", .str "v"], freshName 0), ([freshName 0], .str "#")] ∧ pathOf tn.nodes.keys o = none := by
  refine ⟨_, _, rfl, ?_, rfl, by decide⟩
  decide +kernel

/-- A closed network that simplifies to one node: there is nothing in the matrix, and scipy raises `ValueError`. -/
theorem c56_scalar_violated : ∃ tn, TN.run {} khpScalar = some tn ∧
    ∀ part cutoff path cost, khpFind part cutoff path cost tn = none := by
  refine ⟨_, rfl, ?_⟩
  intro part cutoff path cost
  rfl

/-- Two matrices on an open edge. -/
def khpShared : List (Op Shp) :=
  [.addNode (some (.str "u")) (.int 0) (some [.str "x", .str "y"]) (shp [2, 2]) false,
   .addNode (some (.str "v")) (.int 1) (some [.str "x", .str "z"]) (shp [2, 2]) false,
   .openEdge (.str "x") none, .openEdge (.str "y") none, .openEdge (.str "z") none]

/-- `simplify` takes an open edge of two nodes for one that disappears: it merges two matrices into a tensor with three
legs. -/
theorem c56_shared_violated : ∃ tn small, TN.run {} khpShared = some tn ∧
    tn.simplify (fun i => .int i) tn.nodes.length 0 = some small ∧ tn.nodes.map (fun p => p.2.legs.length) = [2, 2] ∧
    small.nodes.map (fun p => p.2.legs.length) = [3] :=
  ⟨_, _, rfl, rfl, by decide, by decide⟩

/-! ## A concrete case -/

/-- A triangle of tensors with open edges, and a matrix on one of these. -/
def khpTriangle : List (Op (TVal Nat)) :=
  [.addNode (some (.str "a")) (.int 0) (some [.str "x", .str "y", .str "i"]) (arrVal [2, 2, 2] fun i => i.sum + 1) false,
   .addNode (some (.str "b")) (.int 1) (some [.str "y", .str "z", .str "j"]) (arrVal [2, 2, 2] fun i => i.sum * 2) false,
   .addNode (some (.str "c")) (.int 2) (some [.str "z", .str "x", .str "k"]) (arrVal [2, 2, 2] fun i => i.sum + 3) false,
   .addNode (some (.str "d")) (.int 3) (some [.str "i", .str "l"]) (arrVal [2, 2] fun i => i.headD 0) false,
   .openEdge (.str "j") none, .openEdge (.str "k") none, .openEdge (.str "l") none]

/-- A partitioner that puts nodes next to each other into the same block. -/
def khpBlocks (_ : Nat) (_ : Bool) (_ : Tanner) (i : Nat) : Nat := min (i / 2) 2

theorem khpTriangle_ok : ∃ tn : TN (TVal Nat), TN.run {} khpTriangle = some tn ∧
    Completable arrContract tn ∧ ClosedFixOK tn ∧ (∀ e r, tn.edges.get? e = some r → r.fix = none) ∧ .str "#" ∉ tn.nodes.keys ∧
    (∀ j : Int, 0 < j → Nm.pair (.str "#") (.int j) ∉ tn.nodes.keys) := by
  have hc : TN.Consistent _ := c11_consistent_partial (ops := khpTriangle)
    ⟨trivial, trivial, trivial, trivial, trivial, trivial, trivial, trivial⟩ rfl
  refine ⟨_, rfl, ⟨hc, TN.dimsKnown_of_B hc rfl, TN.ready_of_readyB rfl, ?_, ?_, by decide,
    tens_of_arraysB rfl, fun _ => rfl⟩, closedFix_of_B rfl, ?_, by decide, ?_⟩
  · intro e he k hk hcon
    have h3 : deltaEdge e k ∈ [Nm.str "x", .str "y", .str "i", .str "z", .str "j", .str "k", .str "l"] := hcon
    simp [deltaEdge, Nm.pair] at h3
  · intro e he k hcon
    have h3 : deltaNode e k ∈ [Nm.str "a", .str "b", .str "c", .str "d"] := hcon
    simp [deltaNode, Nm.triple] at h3
  · intro e r hr
    have : ∀ p ∈ ([(.str "x", { dim := some 2 }), (.str "y", { dim := some 2 }), (.str "i", { dim := some 2 }),
        (.str "z", { dim := some 2 }), (.str "j", { dim := some 2 }), (.str "k", { dim := some 2 }),
        (.str "l", { dim := some 2 })] : List (Nm × EdgeRec)), p.2.fix = none := by decide
    exact this (e, r) (Dict.mem_of_get? hr)
  · intro j _ hcon
    have h3 : Nm.pair (.str "#") (.int j) ∈ [Nm.str "a", .str "b", .str "c", .str "d"] := hcon
    simp [Nm.pair] at h3

/-- C56 on this network: `d` is merged with `a` (the value stays), and the triangle is put into two blocks. -/
example : ∃ (tn small : TN (TVal Nat)) (o : List OrderStep), TN.run {} khpTriangle = some tn ∧
    khpSimplify tn.nodes.length tn 0 = some (small, [([.str "a", .str "d"], freshName 0)], 1) ∧
    (∀ idx, small.value TVal.val idx = tn.value TVal.val idx) ∧ small.nodes.length = 3 ∧
    khpFind khpBlocks 6 firstTwo (fun _ => 0) tn = some o ∧
    o = [([.str "a", .str "d"], freshName 0), ([.str "b", .str "c"], freshName 1), ([freshName 1, freshName 0], .str "#")] ∧
    ValidOrder tn.nodes.keys o (.str "#") ∧ SingleAssignment tn.nodes.keys o ∧ Pairwise2 o := by
  obtain ⟨tn, h0, hC, hF, hx, h1, h2⟩ := khpTriangle_ok
  obtain ⟨small, o, k, h3, h4⟩ := c56_simplify_value (val := TVal.val) (fun t => TVal.val_ofTN t) hC.cons hC.ready hx h2
  have h5 : khpFind khpBlocks 6 firstTwo (fun _ => 0) tn = some [([.str "a", .str "d"], freshName 0),
      ([.str "b", .str "c"], freshName 1), ([freshName 1, freshName 0], .str "#")] := by
    cases h0
    decide +kernel
  obtain ⟨g1, g2, small', init, k', rest, g3, _, _, _, g4, _⟩ := c56_order_partial (part := khpBlocks)
    (by intro s top g i; unfold khpBlocks; omega) firstTwo_good hC.cons h1 h2 h5
  have h6 : o = [([.str "a", .str "d"], freshName 0)] ∧ k = 1 ∧ small.nodes.length = 3 := by
    cases h0
    cases h3
    exact ⟨by decide +kernel, by decide +kernel, by decide +kernel⟩
  obtain ⟨rfl, rfl, h7⟩ := h6
  rw [fixAll_noFix hx, h3] at g3
  cases g3
  exact ⟨tn, small, _, h0, h3, h4, h7, h5, rfl, g1, g2, g4 (by omega)⟩

theorem lastLeg_of_B {tn : TN τ} (h : (tn.nodes.getLast?.map fun p => p.2.legs.isEmpty) = some false) :
    ∃ others n r, tn.nodes = others ++ [(n, r)] ∧ r.legs ≠ [] := by
  obtain ⟨⟨n, r⟩, h1, h2⟩ := Option.map_eq_some_iff.1 h
  obtain ⟨others, h3⟩ := List.getLast?_eq_some_iff.1 h1
  exact ⟨others, n, r, h3, by simpa using h2⟩

/-- The hypotheses of `c56_found_partial` are met. -/
example : ∃ (tn : TN (TVal Nat)) (o : List OrderStep), TN.run {} khpTriangle = some tn ∧
    khpFind khpBlocks 2 firstTwo List.length tn = some o := by
  obtain ⟨tn, h0, hC, hF, hx, h1, h2⟩ := khpTriangle_ok
  obtain ⟨o, ho⟩ := c56_found_partial (part := khpBlocks) (cutoff := 2) (cost := List.length)
    (by intro s top g i; unfold khpBlocks; omega) firstTwo_good hC.cons hC.ready hx h2 (by
      intro small o k h
      cases h0
      cases h
      exact lastLeg_of_B (by decide +kernel))
  exact ⟨tn, o, h0, ho⟩

/-- The hypotheses of `c56_contract_partial` are met. -/
example : ∃ (tn : TN (TVal Nat)) (r : Arr Nat), TN.run {} khpTriangle = some tn ∧ Represents TVal.val tn r := by
  obtain ⟨tn, h0, hC, hF, hx, h1, h2⟩ := khpTriangle_ok
  obtain ⟨r, hr⟩ := c56_contract_partial (srt := id) (memory := 16) plainEngine_sound (fun l => List.Perm.refl l) hC hF h1 h2
    (part := khpBlocks) (by intro s top g i; unfold khpBlocks; omega) firstTwo_good (cutoff := 6) (cost := fun _ => 0)
    (width := fun _ _ => 0) (by intros; omega) (by
      intro tn' hd
      have hs : (khpFind khpBlocks 6 firstTwo (fun _ => 0) tn').isSome = true := by
        cases h0
        cases hd
        decide +kernel
      obtain ⟨o, ho⟩ := Option.isSome_iff_exists.1 hs
      refine ⟨o, ho, fun small init k h => ?_⟩
      cases h0
      cases hd
      cases h
      decide +kernel)
  exact ⟨tn, r, h0, hr.2⟩

end Verif
