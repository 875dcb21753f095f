import Verif.Lemmas.OrderMoves
import Verif.Props.Contract
/-!
# C31, C32, C33, C34, C45: orders stay valid
-/

namespace Verif

/-! ## C32: from paths to named orders -/

/-- An external path finder that gives a valid path for every step. -/
def GoodPaths (path : OrderStep → List (List Nat)) : Prop :=
  ∀ s : OrderStep, s.1 ≠ [] → ValidPath s.1.length (path s) ∧ path s ≠ [] ∧ (2 ≤ s.1.length → ∀ p ∈ path s, p.length = 2)

theorem ValidOrder.ops_ne {ns : List Nm} {o : List (List Nm × Nm)} {last : Nm} (h : ValidOrder ns o last) :
    ∀ s ∈ o, s.1 ≠ [] := by
  induction h with
  | done => simp
  | step _ h2 _ _ ih =>
    intro s hs
    rcases List.mem_cons.1 hs with rfl | hs
    · exact h2
    · exact ih s hs

/-- C32 (one step): a valid path over the operands of a step becomes steps that consume every operand exactly once,
name the intermediates `('#', k+1), ('#', k+2), …` and end in the result of the step - whatever other tensors are
around, as long as these names are not in use. -/
theorem c32_step {s : OrderStep} {path : List (List Nat)} (hv : ValidPath s.1.length path) (hne : path ≠ []) (k : Int) :
    ∃ o k', pathToPaired s path k = some (o, k') ∧ (∀ t ∈ o, t.1.length ≤ 2) ∧ k + (o.length - 1 : Nat) ≤ k' ∧
      o.map (·.2) = (List.range (o.length - 1)).map (fun i : Nat => Nm.pair (.str "#") (.int (k + i + 1))) ++ [s.2] ∧
      ∀ rest, s.2 ∉ rest → (∀ j, k < j → Nm.pair (.str "#") (.int j) ∉ s.1 ++ rest) → Runs (s.1 ++ rest) o (s.2 :: rest) := by
  obtain ⟨init, xs, k', h1, h2, h2', h3, h4, h5, h6, h7⟩ := pathToPaired_spec hv hne k
  refine ⟨_, _, h1, ?_, ?_, ?_, ?_⟩
  · intro t ht
    rw [List.mem_append, List.mem_singleton] at ht
    rcases ht with ht | rfl
    · exact (h6 t ht).le
    · exact h2'
  · simpa using h5
  · rw [List.map_append, h4]
    simp [freshNames, freshName]
  · intro rest hr hf
    refine (h3 rest fun j hj => hf (j + 1) (by omega)).append ?_
    exact .cons (List.Perm.refl _) h2 hr (.nil (List.Perm.refl _))

theorem resolveOrder_good {path : OrderStep → List (List Nat)} {ns : List Nm} {o : List OrderStep}
    (hp : GoodPaths path) (hv : ValidOrder ns o (.str "#")) (hs : SingleAssignment ns o) :
    ∃ o' fresh, resolveOrder path o = some o' ∧ ValidOrder ns o' (.str "#") ∧ SingleAssignment ns o' ∧
      (∀ s ∈ o', s.1.length ≤ 2) ∧ ((∀ s ∈ o, 2 ≤ s.1.length) → Pairwise2 o') ∧
      (o'.map (·.2)).Perm (o.map (·.2) ++ fresh) ∧
      (∀ x ∈ fresh, x ∉ ns ∧ x ∉ o.flatMap (·.1) ∧ x ∉ o.map (·.2)) := by
  obtain ⟨o', js, h1, h2, h3, h4, h5, h6, h7, _⟩ := resolveLoop_spec hv
    (fun s hm => ⟨(hp s (hv.ops_ne s hm)).1, (hp s (hv.ops_ne s hm)).2.1⟩) (counterStart o)
    (fun x hx j hj => counterStart_fresh hx hj)
  have hbal := (validOrder_iff.1 hv).balance
  have hdis : ∀ x ∈ js.map freshName, x ∉ ns ∧ x ∉ o.flatMap (·.1) ∧ x ∉ o.map (·.2) := by
    intro x hx
    obtain ⟨j, hj, rfl⟩ := List.mem_map.1 hx
    have a : freshName j ∉ o.flatMap (·.1) := fun hc => counterStart_fresh hc (h6 j hj) rfl
    have b : freshName j ∉ o.flatMap (·.1) ++ [.str "#"] := by
      rw [List.mem_append, not_or]
      exact ⟨a, by simp [freshName, Nm.pair]⟩
    have c : freshName j ∉ ns ++ o.map (·.2) := fun hc => b (hbal.symm.subset hc)
    rw [List.mem_append, not_or] at c
    exact ⟨c.1, a, c.2⟩
  refine ⟨o', js.map freshName, h1, h2, ?_, h3, ?_, h7, hdis⟩
  · unfold SingleAssignment
    rw [(h7.append_left ns).nodup_iff, ← List.append_assoc]
    refine List.Nodup.append hs (h5.map fun a b => freshName_inj) fun x hx hx' => ?_
    obtain ⟨d1, _, d3⟩ := hdis x hx'
    rcases List.mem_append.1 hx with h | h
    · exact d1 h
    · exact d3 h
  · intro h2'
    exact h4 fun s hm p hpm => (hp s (hv.ops_ne s hm)).2.2 (h2' s hm) p hpm

/-- C32: resolving the steps of a valid order along any valid paths gives a valid order of at most pairwise steps that
ends in the same tensor; its result names are those of the order and new ones that occur nowhere in it. -/
theorem c32_resolve_partial {path : OrderStep → List (List Nat)} {ns : List Nm} {o : List OrderStep}
    (hp : GoodPaths path) (hv : ValidOrder ns o (.str "#")) (hs : SingleAssignment ns o) :
    ∃ o' fresh, resolveOrder path o = some o' ∧ ValidOrder ns o' (.str "#") ∧ SingleAssignment ns o' ∧
      (∀ s ∈ o', s.1.length ≤ 2) ∧ ((∀ s ∈ o, 2 ≤ s.1.length) → Pairwise2 o') ∧
      (o'.map (·.2)).Perm (o.map (·.2) ++ fresh) ∧
      (∀ x ∈ fresh, x ∉ ns ∧ x ∉ o.flatMap (·.1) ∧ x ∉ o.map (·.2)) :=
  resolveOrder_good hp hv hs

/-- C32: the order `OptEinsumOrderFinder` makes of any valid path over the nodes is valid and gives no name
twice if no node is called `('#', j)` with `j ≥ 1`. -/
theorem c32_opt_einsum_partial {path : OrderStep → List (List Nat)} (hp : GoodPaths path) {ns : List Nm} (hn : ns.Nodup)
    (hl : 2 ≤ ns.length) {whole : List (List Nat)} (hw : ValidPath ns.length whole) (hw2 : ∀ p ∈ whole, p.length = 2)
    (h1 : .str "#" ∉ ns) (h2 : ∀ j : Int, 0 < j → Nm.pair (.str "#") (.int j) ∉ ns) :
    ∃ o, findOptEinsum whole path ns = some o ∧ ValidOrder ns o (.str "#") ∧ Pairwise2 o ∧ SingleAssignment ns o := by
  have hne : whole ≠ [] := by
    rintro rfl
    generalize hm : ns.length = m at hw hl
    cases hw
    omega
  obtain ⟨init, xs, k', e1, e2, e2', e3, e4, e5, e6, e7⟩ := pathToPaired_spec (s := (ns, .str "#")) hw hne 0
  have hr := (e3 [] fun j hj hc => h2 (j + 1) (by omega) (by simpa [freshName] using hc))
  have hv : ValidOrder ns (init ++ [(xs, .str "#")]) (.str "#") := by
    rw [validOrder_iff]
    refine Runs.append (by simpa using hr) (.cons (rest := []) ?_ e2 (by simp) (.nil (List.Perm.refl _)))
    simp
  have hs : SingleAssignment ns (init ++ [(xs, .str "#")]) := by
    unfold SingleAssignment
    rw [List.map_append, e4, List.map_singleton, ← List.append_assoc, (List.perm_append_singleton _ _).nodup_iff,
      List.nodup_cons, List.mem_append, not_or]
    refine ⟨⟨h1, fun hc => ?_⟩, List.Nodup.append hn (freshNames_nodup _ _) fun x hx hx' => ?_⟩
    · obtain ⟨j, _, _, h⟩ := mem_freshNames hc
      simp [freshName, Nm.pair] at h
    · obtain ⟨j, hj, _, rfl⟩ := mem_freshNames hx'
      exact h2 (j + 1) (by omega) hx
  obtain ⟨o', _, f1, f2, f3, _, f5, _⟩ := resolveOrder_good hp hv hs
  refine ⟨o', ?_, f2, f5 fun s hm => ?_, f3⟩
  · unfold findOptEinsum
    rw [if_pos (by omega), e1]
    exact f1
  · rw [List.mem_append, List.mem_singleton] at hm
    rcases hm with hm | rfl
    · exact (e6 s hm).ge
    · exact (e7 hw2).ge

/-! ## C31: the default order -/

theorem defaultSteps_names (k : Nm) (i : Nat) (ns : List Nm) :
    ((defaultSteps k i ns).map (·.2)).Nodup ∧
    ∀ x ∈ (defaultSteps k i ns).map (·.2), x = .str "#" ∨ ∃ j : Nat, i ≤ j ∧ x = Nm.pair (.str "#") (.int j) := by
  induction ns generalizing k i with
  | nil => simp [defaultSteps]
  | cons n ns ih =>
    cases ns with
    | nil => simp [defaultSteps]
    | cons m ns =>
      rw [defaultSteps, List.map_cons, List.nodup_cons]
      obtain ⟨h1, h2⟩ := ih (k := Nm.pair (.str "#") (.int i)) (i := i + 1)
      refine ⟨⟨fun hc => ?_, h1⟩, fun x hx => ?_⟩
      · rcases h2 _ hc with h | ⟨j, hj, h⟩
        · simp [Nm.pair] at h
        · simp [Nm.pair] at h
          omega
      · rcases List.mem_cons.1 hx with rfl | hx
        · exact Or.inr ⟨i, le_rfl, rfl⟩
        · rcases h2 x hx with h | ⟨j, hj, h⟩
          · exact Or.inl h
          · exact Or.inr ⟨j, by omega, h⟩

/-- C31: for every set of at least two nodes and every way of sorting them, the default order finder returns a
pairwise valid order ending in `'#'`: the operands are the nodes and the intermediates, each exactly once.  It is
assumed that no node is called `'#'` or `('#', j)`. -/
theorem c31_default_partial {srt : List Nm → List Nm} (hsrt : ∀ l, (srt l).Perm l) {path : OrderStep → List (List Nat)}
    (hp : GoodPaths path) {ns : List Nm} (hn : ns.Nodup) (hl : 2 ≤ ns.length)
    (h1 : .str "#" ∉ ns) (h2 : ∀ j, Nm.pair (.str "#") (.int j) ∉ ns) :
    ∃ o : List OrderStep, findDefault srt path ns = some o ∧ ValidOrder ns o (.str "#") ∧ Pairwise2 o ∧
      SingleAssignment ns o ∧ (o.flatMap (·.1)).Nodup ∧ (o.flatMap (·.1) ++ [Nm.str "#"]).Perm (ns ++ o.map (·.2)) ∧
      o.getLast?.map (·.2) = some (.str "#") := by
  have hperm := hsrt ns
  unfold findDefault
  match hl2 : srt ns with
  | [] => rw [hl2] at hperm; have := hperm.length_eq; simp at this; omega
  | [_] => rw [hl2] at hperm; have := hperm.length_eq; simp at this; omega
  | k :: n :: rest =>
    rw [hl2] at hperm
    have hin : ∀ x ∈ n :: rest, x ∈ ns := fun x hx => hperm.subset (List.mem_cons_of_mem _ hx)
    obtain ⟨h3, h4⟩ := defaultSteps_valid (i := 0) (k := k) (ns := n :: rest) (hperm.nodup_iff.2 hn)
      (fun j hc => h2 j (hin _ hc)) (by simp)
    obtain ⟨h5, h6⟩ := defaultSteps_names k 0 (n :: rest)
    have hv := h3.perm hperm
    have hs : SingleAssignment ns (defaultSteps k 0 (n :: rest)) := by
      refine List.Nodup.append hn h5 fun x hx hx' => ?_
      rcases h6 x hx' with rfl | ⟨j, _, rfl⟩
      · exact h1 hx
      · exact h2 j hx
    obtain ⟨o', _, f1, f2, f3, _, f5, _, _⟩ := resolveOrder_good hp hv hs
    have hnd := (validOrder_iff.1 f2).ops_nodup f3
    refine ⟨o', f1, f2, f5 fun s hm => (h4 s hm).ge, f3, hnd.sublist (List.sublist_append_left _ _),
      (validOrder_iff.1 f2).balance, ?_⟩
    have hne : o' ≠ [] := by
      rintro rfl
      generalize hm : Nm.str "#" = m at f2
      cases f2
      simp at hl
    obtain ⟨init, s, rfl⟩ : ∃ init s, o' = init ++ [s] := ⟨_, _, (List.dropLast_append_getLast hne).symm⟩
    rw [validOrder_iff] at f2
    obtain ⟨b, _, g2⟩ := f2.split
    cases g2 with
    | cons q1 q2 q3 q4 =>
      cases q4 with
      | nil q =>
        have := List.perm_singleton.1 q
        simp at this
        simp [this.1]

/-- C31: with fewer than two nodes there is nothing to contract. -/
theorem c31_default_small {srt : List Nm → List Nm} (hsrt : ∀ l, (srt l).Perm l) (path : OrderStep → List (List Nat))
    {ns : List Nm} (hl : ns.length ≤ 1) : findDefault srt path ns = some [] := by
  have hlen := (hsrt ns).length_eq
  unfold findDefault
  match h : srt ns with
  | [] => rfl
  | [_] => rfl
  | _ :: _ :: _ => rw [h] at hlen; simp at hlen; omega

/-- C31 is violated when a node is called `('#', 0)`: the order for the nodes `('!',0), ('"',0), ('#',0)` gives the first
intermediate the name of the third node. -/
theorem c31_hash_name_violated :
    let ns := [Nm.pair (.str "!") (.int 0), Nm.pair (.str "\"") (.int 0), Nm.pair (.str "#") (.int 0)]
    ∃ o, findDefault id (fun _ => [[0, 1]]) ns = some o ∧ ∀ last, ¬ ValidOrder ns o last := by
  intro ns
  refine ⟨_, rfl, fun last h => ?_⟩
  generalize hns : ns = ms at h
  cases h with
  | @step _ _ rest _ _ _ h1 h2 h3 h4 =>
    rw [← hns] at h1
    have hm : Nm.pair (.str "#") (.int 0) ∈ rest := by
      have := h1.subset (a := Nm.pair (.str "#") (.int 0)) (by simp [ns])
      simpa [Nm.pair, ns] using this
    exact h3 hm

/-- C32 is violated by `OptEinsumOrderFinder` when a node is called `('#', 1)`: its counter starts at 0 whatever the
node names are, and the first intermediate takes the name of that node. -/
theorem c32_opt_einsum_violated :
    let ns := [Nm.str "a", Nm.str "b", Nm.pair (.str "#") (.int 1)]
    ∃ o k, pathToPaired (ns, .str "#") [[0, 1], [0, 1]] 0 = some (o, k) ∧ ValidPath 3 [[0, 1], [0, 1]] ∧
      ∀ last, ¬ ValidOrder ns o last := by
  intro ns
  refine ⟨_, _, rfl, .two (by omega) (by omega) (by omega) (.two (by omega) (by omega) (by omega) .done), fun last h => ?_⟩
  generalize hns : ns = ms at h
  cases h with
  | @step _ _ rest _ _ _ h1 h2 h3 h4 =>
    rw [← hns] at h1
    have hm : Nm.pair (.str "#") (.int 1) ∈ rest := by
      have := h1.subset (a := Nm.pair (.str "#") (.int 1)) (by simp [ns])
      simpa [Nm.pair, ns] using this
    exact h3 hm

/-- C32: a path entry with three positions (which the code accepts) loses an operand. -/
theorem c32_wide_entry_violated :
    pathToPaired ([.str "a", .str "b", .str "c"], .str "#") [[0, 1, 2]] 0 =
      some ([([.str "a", .str "b"], .str "#")], 1) := by decide

/-! ## C33: local optimisation -/

/-- C33: flattening some steps of a valid order (in which no name is reused) into larger ones, for any size bound,
offset and table of ranks, gives a valid order with the same final tensor; no step grows beyond the size bound. -/
theorem c33_flatten_partial (size offset : Nat) (sz : Nm → Nat) {ns : List Nm} {last : Nm} {order : List OrderStep}
    (h : ValidOrder ns order last) (hs : SingleAssignment ns order) :
    ValidOrder ns (flattenOrder size offset sz order) last ∧ SingleAssignment ns (flattenOrder size offset sz order) ∧
    ((flattenOrder size offset sz order).map (·.2)).Sublist (order.map (·.2)) ∧
    ((∀ s ∈ order, s.1.length ≤ size) → ∀ s ∈ flattenOrder size offset sz order, s.1.length ≤ size) :=
  let f := flattenOrder_spec size offset sz h hs
  ⟨f.valid, f.single, f.names, f.bound⟩

/-- C33: any number of rounds of local optimisation, with any random offsets and any path finder, turns a valid
pairwise order into a valid pairwise order. -/
theorem c33_optimize_partial (size : Nat) {ns : List Nm} (rounds : List (Nat × (Nm → Nat) × (OrderStep → List (List Nat))))
    (hp : ∀ r ∈ rounds, GoodPaths r.2.2) {order : List OrderStep} (h : ValidOrder ns order (.str "#"))
    (hs : SingleAssignment ns order) (h2 : Pairwise2 order) :
    ∃ o', optimizeOrder size rounds order = some o' ∧ ValidOrder ns o' (.str "#") ∧ SingleAssignment ns o' ∧ Pairwise2 o' := by
  induction rounds generalizing order with
  | nil => exact ⟨order, rfl, h, hs, h2⟩
  | cons r rounds ih =>
    obtain ⟨offset, sz, path⟩ := r
    have f := flattenOrder_spec size offset sz h hs
    obtain ⟨o', _, e1, e2, e3, _, e5, _⟩ := resolveOrder_good (hp _ List.mem_cons_self) f.valid f.single
    obtain ⟨o'', g1, g2⟩ := ih (fun r hr => hp r (List.mem_cons_of_mem _ hr)) e2 e3
      (e5 (f.lower fun s hm => (h2 s hm).ge))
    refine ⟨o'', ?_, g2⟩
    rw [optimizeOrder, e1]
    exact g1

/-- C33 is violated for a valid order that uses a name again: here `a` is an initial tensor and later the name of an
intermediate; delaying the step that consumes the first `a` makes the two collide. -/
theorem c33_name_reuse_violated :
    let ns := [Nm.str "a", .str "b", .str "c", .str "d"]
    let o : List OrderStep := [([.str "a", .str "b"], .str "x"), ([.str "c", .str "d"], .str "a"), ([.str "x", .str "a"], .str "#")]
    let sz : Nm → Nat := fun n => if n = .str "x" then 10 else 3
    ValidOrder ns o (.str "#") ∧ ∀ last, ¬ ValidOrder ns (flattenOrder 13 0 sz o) last := by
  intro ns o sz
  refine ⟨.step (xs := [.str "a", .str "b"]) (rest := [.str "c", .str "d"]) (List.Perm.refl _) (by simp) (by simp)
    (.step (xs := [.str "c", .str "d"]) (rest := [.str "x"]) (List.perm_append_comm (l₁ := [Nm.str "x"])) (by simp) (by simp)
      (.step (xs := [.str "x", .str "a"]) (rest := []) (List.Perm.swap _ _ _) (by simp) (by simp) (.done _))), fun last h => ?_⟩
  have e : flattenOrder 13 0 sz o = [([.str "c", .str "d"], .str "a"), ([.str "a", .str "a", .str "b"], .str "#")] := by
    decide +kernel
  rw [e] at h
  generalize hns : ns = ms at h
  cases h with
  | @step _ _ rest _ _ _ h1 h2 h3 h4 =>
    rw [← hns] at h1
    have hm : Nm.str "a" ∈ rest := by
      have := h1.subset (a := Nm.str "a") (by simp [ns])
      simpa using this
    exact h3 hm

/-! ## C34: reorganising at compile time -/

/-- C34: reading a valid order off the contraction tree and moving small steps to the front splits it into `init` and
`final`, which together are the steps of the order (up to the order of the two operands) and form a valid order, for
every threshold and table of sizes.  `init` has only steps below the threshold and is maximal. -/
theorem c34_reorg_partial (thres : Nat) (sz len : Nm → Nat) {ns : List Nm} {order : List OrderStep}
    (hv : ValidOrder ns order (.str "#")) (hs : SingleAssignment ns order) (hb : ∀ s ∈ order, s.1.length ≤ 2) :
    ∃ init final, reorgOrder thres sz len ns order = some (init, final) ∧ ValidOrder ns (init ++ final) (.str "#") ∧
      ((init ++ final).map unordered).Perm (order.map unordered) ∧ (∀ s ∈ init, sz s.2 < thres) ∧
      ∃ live, Runs ns init live ∧ ∀ s ∈ final, sz s.2 < thres → ∃ x ∈ s.1, x ∉ live := by
  obtain ⟨o', h1, h2, h3⟩ := treeOrder_spec len hv hs hb
  have hres : (o'.map (·.2)).Perm (order.map (·.2)) := by
    have := h3.map Prod.snd
    simpa [unordered, Function.comp_def] using this
  obtain ⟨moved, e1, e2, e3, e4, e5⟩ := reorgLoop_spec thres sz o'.length ns [] o' h2
    (hs.of_perm (List.Perm.refl _) hres.symm)
  rw [List.nil_append] at e1
  refine ⟨_, _, by unfold reorgOrder; rw [h1], ?_, ?_, ?_, ?_⟩
  · rw [e1]; exact e2
  · rw [e1]; exact (e3.map _).trans h3
  · rw [e1]; exact e4
  · rw [e1]; exact e5 le_rfl

/-- C34 is violated for a network of a single node: its (empty) order is fine, but `from_order` looks up `'#'` and fails. -/
theorem c34_single_node_violated :
    ValidOrder [.str "a"] [] (.str "a") ∧ reorgOrder 5 (fun _ => 0) (fun _ => 0) [.str "a"] [] = none :=
  ⟨.done _, by decide⟩

/-! ## C01 with orders found by the code -/

theorem optimizeOrder_nil (size : Nat) (rounds : List (Nat × (Nm → Nat) × (OrderStep → List (List Nat)))) :
    optimizeOrder size rounds [] = some [] := by
  induction rounds with
  | nil => rfl
  | cons r rounds ih =>
    obtain ⟨offset, sz, path⟩ := r
    exact ih

/-- C01 for the order the code really uses: the default order, resolved by any path finder and locally optimised any
number of times, gives the Einstein sum.  Partial: as `c01_default_partial`. -/
theorem c01_resolved_partial {R : Type} [CommSemiring R] [Star R] {L : Type} [AddCommMonoid L]
    {contract : TVal R → Option (Arr R)} {tn : TN (TVal R)} {srt : List Nm → List Nm} {E : Engine L R} {ex : L → R}
    {memory : Nat} (hE : E.Sound ex) (hsrt : ∀ l, (srt l).Perm l) (hC : Completable contract tn)
    (hF : ClosedFixOK tn) (h1 : .str "#" ∉ tn.nodes.keys) (h2 : ∀ j, Nm.pair (.str "#") (.int j) ∉ tn.nodes.keys)
    {path : OrderStep → List (List Nat)} (hp : GoodPaths path) (size : Nat)
    (rounds : List (Nat × (Nm → Nat) × (OrderStep → List (List Nat)))) (hr : ∀ r ∈ rounds, GoodPaths r.2.2)
    {width : TN (TVal R) → List OrderStep → Nat} (hw : ∀ t o, width t o * 3 * 2 ^ 4 ≤ memory * 2 ^ 30) :
    ∃ r, tn.contractWith contract memory (resolvedFinder srt path size rounds width) srt E ex = .ok r ∧
      Represents TVal.val tn r := by
  refine c01_contract_partial hE hsrt hC hF fun tn' hd => ?_
  obtain ⟨tn2, h3, h4, _, _, _, _, _, _, _, h5, _⟩ := hC.complete
  rw [hd, Prod.mk.injEq] at h3
  obtain ⟨rfl, _⟩ := h3
  have h6 : .str "#" ∉ tn'.nodes.keys := fun hc => by
    rcases h5 _ hc with h | h | ⟨e, k, h⟩
    · exact h1 h
    · simp at h
    · simp [deltaNode, Nm.triple] at h
  have h7 : ∀ j, Nm.pair (.str "#") (.int j) ∉ tn'.nodes.keys := fun j hc => by
    rcases h5 _ hc with h | h | ⟨e, k, h⟩
    · exact h2 j h
    · simp [Nm.pair] at h
    · simp [deltaNode, Nm.triple, Nm.pair] at h
  by_cases hl : 2 ≤ tn'.nodes.keys.length
  · obtain ⟨o, e1, e2, e3, hnd, _⟩ := c31_default_partial hsrt hp h4.nodes_nodup hl h6 h7
    obtain ⟨o', g1, g2, _, g4⟩ := c33_optimize_partial size rounds hr e2 hnd e3
    refine ⟨⟨width tn' o', o', []⟩, ?_, ⟨Or.inr ⟨_, g2, g4⟩, hw _ _⟩, sliceOK_nil⟩
    unfold resolvedFinder
    rw [e1]
    dsimp only
    rw [g1]
  · refine ⟨⟨width tn' [], [], []⟩, ?_, ⟨Or.inl rfl, hw _ _⟩, sliceOK_nil⟩
    unfold resolvedFinder
    rw [c31_default_small hsrt path (by omega)]
    dsimp only
    rw [optimizeOrder_nil]

/-! ## C45: orders and paths -/

/-- C45: for every valid pairwise order over distinctly named tensors `order_to_path` gives a valid path of the same
length. -/
theorem c45_order_to_path {ns : List Nm} {o : List OrderStep} {last : Nm} (h : ValidOrder ns o last) (hp : Pairwise2 o)
    (hn : ns.Nodup) : ∃ p, orderToPath ns o = some p ∧ ValidPath ns.length p ∧ p.length = o.length :=
  orderToPath_valid h hp hn

/-- C45: `order_to_path` undoes `path_to_paired_order`: naming the steps of any valid pairwise path and reading the
path off again gives the same path. -/
theorem c45_roundtrip {ns : List Nm} {path : List (List Nat)} (hv : ValidPath ns.length path) (h2 : ∀ p ∈ path, p.length = 2)
    (hne : path ≠ []) (hn : ns.Nodup) (k : Int) (hf : ∀ j, k < j → Nm.pair (.str "#") (.int j) ∉ ns) (rhs : Nm) :
    ∃ o k', pathToPaired (ns, rhs) path k = some (o, k') ∧ orderToPath ns o = some path := by
  obtain ⟨new, k', e1, e2, e3⟩ := pairLoop_roundtrip rhs hv ns [] k rfl h2 hn (fun j hj => hf (j + 1) (by omega))
  rw [List.nil_append] at e1
  obtain ⟨init, s, hnew⟩ : ∃ init s, new = init ++ [s] := ⟨_, _, (List.dropLast_append_getLast (e3 hne)).symm⟩
  have hset := setLastName_append rhs init s
  rw [← hnew] at hset
  refine ⟨_, k', ?_, (orderToPath_setLast rhs _ _ _ hset).trans e2⟩
  unfold pathToPaired
  dsimp only
  rw [e1]
  dsimp only
  rw [hset]
  rfl

/-! ## Concrete cases -/

/-- A path finder that contracts the first two operands again and again. -/
def firstTwo (s : OrderStep) : List (List Nat) :=
  match s.1.length with
  | 1 => [[0]]
  | n => List.replicate (n - 1) [0, 1]

theorem validPath_replicate : ∀ n : Nat, ValidPath (n + 1) (List.replicate n [0, 1])
  | 0 => .done
  | n + 1 => .two (by omega) (by omega) (by omega) (validPath_replicate n)

theorem firstTwo_good : GoodPaths firstTwo := by
  intro s hs
  have hl : 0 < s.1.length := List.length_pos_of_ne_nil hs
  unfold firstTwo
  generalize s.1.length = n at hl
  match n, hl with
  | 1, _ => exact ⟨.one (by omega) .done, by simp, by omega⟩
  | n + 2, _ =>
    exact ⟨validPath_replicate (n + 1), by simp [List.replicate_succ], fun _ p hp => by rw [List.eq_of_mem_replicate hp]; rfl⟩

/-- C31 on four nodes. -/
example : ∃ o, findDefault id firstTwo [.str "a", .str "b", .str "c", .str "d"] = some o ∧
    ValidOrder [.str "a", .str "b", .str "c", .str "d"] o (.str "#") ∧ o.length = 3 := by
  obtain ⟨o, h1, h2, _⟩ := c31_default_partial (srt := id) (fun l => List.Perm.refl l) firstTwo_good
    (ns := [.str "a", .str "b", .str "c", .str "d"]) (by decide) (by decide) (by decide) (by intro j; simp [Nm.pair])
  have h3 : findDefault id firstTwo [.str "a", .str "b", .str "c", .str "d"] = some
    [([.str "b", .str "a"], Nm.pair (.str "#") (.int 0)), ([.str "c", Nm.pair (.str "#") (.int 0)], Nm.pair (.str "#") (.int 1)),
      ([.str "d", Nm.pair (.str "#") (.int 1)], .str "#")] := by decide +kernel
  exact ⟨o, h1, h2, by rw [h3] at h1; cases h1; rfl⟩

/-- A valid order with a step of three operands, no name given twice. -/
def wideOrder : List OrderStep :=
  [([.str "a", .str "b", .str "c"], Nm.pair (.str "#") (.int 1)), ([Nm.pair (.str "#") (.int 1), .str "d"], .str "#")]

theorem wideOrder_ok : ValidOrder [.str "a", .str "b", .str "c", .str "d"] wideOrder (.str "#") ∧
    SingleAssignment [.str "a", .str "b", .str "c", .str "d"] wideOrder :=
  ⟨.step (rest := [.str "d"]) (List.Perm.refl _) (by simp) (by simp [Nm.pair])
    (.step (rest := []) (List.Perm.refl _) (by simp) (by simp) (.done _)), by unfold SingleAssignment; decide⟩

/-- C32 on this order: the new intermediate is `('#', 2)`. -/
example : ∃ o' fresh, resolveOrder firstTwo wideOrder = some o' ∧ (o'.map (·.2)).Perm (wideOrder.map (·.2) ++ fresh) ∧
    o'.length = 3 := by
  obtain ⟨o', fresh, h1, _, _, _, _, h6, _⟩ := c32_resolve_partial firstTwo_good wideOrder_ok.1 wideOrder_ok.2
  have h3 : resolveOrder firstTwo wideOrder = some
    [([.str "a", .str "b"], Nm.pair (.str "#") (.int 2)), ([.str "c", Nm.pair (.str "#") (.int 2)], Nm.pair (.str "#") (.int 1)),
      ([Nm.pair (.str "#") (.int 1), .str "d"], .str "#")] := by decide +kernel
  exact ⟨o', fresh, h1, h6, by rw [h3] at h1; cases h1; rfl⟩

/-- A valid pairwise order of four tensors. -/
def pairOrder : List OrderStep :=
  [([.str "a", .str "b"], .str "x"), ([.str "c", .str "d"], .str "y"), ([.str "x", .str "y"], .str "#")]

theorem pairOrder_ok : ValidOrder [.str "a", .str "b", .str "c", .str "d"] pairOrder (.str "#") ∧
    SingleAssignment [.str "a", .str "b", .str "c", .str "d"] pairOrder ∧ Pairwise2 pairOrder :=
  ⟨.step (rest := [.str "c", .str "d"]) (List.Perm.refl _) (by simp) (by simp)
    (.step (xs := [.str "c", .str "d"]) (rest := [.str "x"]) (List.perm_append_comm (l₁ := [Nm.str "x"])) (by simp) (by simp)
      (.step (xs := [.str "x", .str "y"]) (rest := []) (List.Perm.swap _ _ _) (by simp) (by simp) (.done _))),
    by unfold SingleAssignment; decide, by unfold Pairwise2; decide⟩

/-- C33: here flattening really happens: the step producing `y` is merged into the last one. -/
example : flattenOrder 4 0 (fun _ => 8) pairOrder =
    [([.str "a", .str "b"], .str "x"), ([.str "x", .str "c", .str "d"], .str "#")] ∧
    ValidOrder [.str "a", .str "b", .str "c", .str "d"] (flattenOrder 4 0 (fun _ => 8) pairOrder) (.str "#") :=
  ⟨by decide +kernel, (c33_flatten_partial 4 0 _ pairOrder_ok.1 pairOrder_ok.2.1).1⟩

/-- C33: two rounds of optimisation. -/
example : ∃ o', optimizeOrder 4 [(0, fun _ => 8, firstTwo), (1, fun _ => 8, firstTwo)] pairOrder = some o' ∧
    ValidOrder [.str "a", .str "b", .str "c", .str "d"] o' (.str "#") ∧ Pairwise2 o' := by
  obtain ⟨o', h1, h2, _, h4⟩ := c33_optimize_partial 4 [(0, fun _ => 8, firstTwo), (1, fun _ => 8, firstTwo)]
    (by intro r hr; simp at hr; rcases hr with rfl | rfl <;> exact firstTwo_good) pairOrder_ok.1 pairOrder_ok.2.1 pairOrder_ok.2.2
  exact ⟨o', h1, h2, h4⟩

/-- C34: the step producing `y` is small and is moved to the front. -/
example : reorgOrder 3 (fun n => if n = .str "y" then 2 else 5) (fun n => if n = .str "y" then 2 else 5)
      [.str "a", .str "b", .str "c", .str "d"] pairOrder =
    some ([([.str "c", .str "d"], .str "y")], [([.str "a", .str "b"], .str "x"), ([.str "y", .str "x"], .str "#")]) ∧
    ∃ init final, reorgOrder 3 (fun n => if n = .str "y" then 2 else 5) (fun n => if n = .str "y" then 2 else 5)
      [.str "a", .str "b", .str "c", .str "d"] pairOrder = some (init, final) ∧
      ValidOrder [.str "a", .str "b", .str "c", .str "d"] (init ++ final) (.str "#") := by
  refine ⟨by decide +kernel, ?_⟩
  obtain ⟨init, final, h1, h2, _⟩ := c34_reorg_partial 3 (fun n => if n = .str "y" then 2 else 5)
    (fun n => if n = .str "y" then 2 else 5) pairOrder_ok.1 pairOrder_ok.2.1 (fun s hs => (pairOrder_ok.2.2 s hs).le)
  exact ⟨init, final, h1, h2⟩

/-- C45 on a path of three operands. -/
example : ∃ o k', pathToPaired ([.str "a", .str "b", .str "c"], .str "#") [[2, 0], [0, 1]] 0 = some (o, k') ∧
    orderToPath [.str "a", .str "b", .str "c"] o = some [[2, 0], [0, 1]] :=
  c45_roundtrip (ns := [.str "a", .str "b", .str "c"]) (path := [[2, 0], [0, 1]]) (.two (by simp) (by simp) (by simp) (.two (by simp) (by simp) (by simp) .done)) (by simp) (by simp)
    (by decide) 0 (by intro j _; simp [Nm.pair]) _

/-- `c01_resolved_partial` applies to the network of three tensors with open, repeated, dangling and fixed edges. -/
example : ∃ (tn : TN (TVal Nat)) (r : Arr Nat), TN.run {} contractExample = some tn ∧
    tn.contractWith arrContract 16 (resolvedFinder id firstTwo 4 [(0, fun _ => 8, firstTwo)] fun _ _ => 0) id plainEngine
      (fun _ => 1) = .ok r ∧ Represents TVal.val tn r := by
  obtain ⟨tn, h0, h1, h2, h3, h4, _⟩ := contractExample_ok
  obtain ⟨r, h5, h6⟩ := c01_resolved_partial plainEngine_sound (srt := id) (fun l => List.Perm.refl l) h1 h2 h3 h4
    firstTwo_good 4 [(0, fun _ => 8, firstTwo)] (by intro r hr; simp at hr; subst hr; exact firstTwo_good)
    (memory := 16) (width := fun _ _ => 0) (by intros; omega)
  exact ⟨tn, r, h0, h5, h6⟩

end Verif
