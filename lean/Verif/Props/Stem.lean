import Verif.Lemmas.StemOrder
import Verif.Props.Patch
/-!
# C60: the search for a better order of the large steps
-/

set_option linter.unusedSectionVars false

namespace Verif

variable {τ : Type} [NetTensor τ] {perm : List Nm → List Nm} {mt : List ((Int × Int) × Nat) → List (Int × Int)} {T width k : Nat}

/-- C60: an order returned by `ContractionTree.patch` is a valid order of the same tensors that ends in `'#'`, has two operands in
each step, gives no name twice and gives the same names as the order before — for every matching chosen, every size of the stem and every
width.  Partial: the stem must be a line, see `StemLinear` and `c60_stem_violated`; it may fail with an exception, see
`c60_fails`. -/
theorem c60_patch_partial (hmt : MatchOK mt) {g : TN τ} {o o' : List OrderStep} (hv : ValidOrder g.nodes.keys o (.str "#")) (h2 : Pairwise2 o)
    (hs : SingleAssignment g.nodes.keys o) (hlin : ∀ t, fromOrder perm g o = some t → StemLinear T t)
    (h : stemPatch perm mt T width k g o = some o') :
    ValidOrder g.nodes.keys o' (.str "#") ∧ Pairwise2 o' ∧ SingleAssignment g.nodes.keys o' ∧ (o'.map (·.2)).Perm (o.map (·.2)) := by
  unfold stemPatch at h
  split at h
  · simp at h
  rename_i t ht
  have hT := fromOrder_spec hv h2 hs ht
  rw [Option.map_eq_some_iff] at h
  obtain ⟨t', h1, rfl⟩ := h
  have hS := mergeNodes_same hmt (hlin t ht) hT.old hT.nodup h1
  obtain ⟨k1, k2, k3⟩ := PTree.order_valid (hS.lv.trans hT.lv) (by rw [hS.nms]; exact hT.nodup)
  rw [hS.name, hT.name] at k1
  refine ⟨k1, k2, k3, ?_⟩
  rw [← Multiset.coe_eq_coe, PTree.fullOrder_names, hS.inn, hT.inn]

/-- C60: the only ways to fail on a consistent network: the shorter chain has less than two branches while at most twelve indices are left
(`IndexError`), the last two branches of a chain have no indices the rest of the stem has not (`KeyError`), or the end of the stem has been merged
into another branch (`KeyError`).  In particular the rounds of merging come to an end and there are names enough. -/
theorem c60_fails (hmt : MatchOK mt) {D : Nm → Nat} (hperm : ∀ l, (perm l).Perm l) {g : TN τ} (hc : g.Consistent) (hl : g.Loose D) (hx : NoFix g)
    {o : List OrderStep} (hv : ValidOrder g.nodes.keys o (.str "#")) (h2 : Pairwise2 o) (hs : SingleAssignment g.nodes.keys o)
    (h : stemPatch perm mt T width k g o = none) :
    ∃ t r c1 c2, fromOrder perm g o = some t ∧ t.info T = some (r, c1, c2) ∧
      ((min c1.tail.length c2.tail.length ≤ 1 ∧ (setDiff c1.keys c2.keys).length ≤ 12) ∨
        ∃ t1 p q c, shiftStem r (if c2.tail.length ≤ c1.tail.length then c2 else c1) (if c2.tail.length ≤ c1.tail.length then c1 else c2) t = some (t1, p, q) ∧
          (c = p ∨ ∃ f, mergeChain mt width k p = some f ∧ c = q.upd f) ∧ 3 ≤ c.tail.length ∧
          ((∀ j e, c.tail[j]? = some e → c.tail.length ≤ j + 2 → e.out = []) ∨
            ∃ d d', toDig c = some (some d) ∧ d.rounds mt width k (d.nodes.length + 1) = some d' ∧ -1 ∉ d'.nodes.keys)) := by
  obtain ⟨t, ht⟩ := fromOrder_some hperm hc hl hx hv h2 hs
  have hlong : ∀ {c : Chain} {x : Option Dig}, toDig c = x.map some → toDig c ≠ some none → 3 ≤ c.tail.length := by
    intro c x _ hd
    by_contra hlt
    refine hd ?_
    unfold toDig
    split
    · rfl
    · rw [if_pos (by omega)]
  have hchain : ∀ {c : Chain}, mergeChain mt width k c = none → 3 ≤ c.tail.length ∧ ((∀ j e, c.tail[j]? = some e → c.tail.length ≤ j + 2 → e.out = []) ∨
      ∃ d d', toDig c = some (some d) ∧ d.rounds mt width k (d.nodes.length + 1) = some d' ∧ -1 ∉ d'.nodes.keys) := by
    intro c hm
    have := mergeChain_none hmt hm
    refine ⟨?_, this.imp toDig_none id⟩
    rcases this with h | ⟨d, d', h, _⟩
    · exact hlong (x := none) h (by rw [h]; simp)
    · exact hlong (x := some d) h (by rw [h]; simp)
  unfold stemPatch at h
  rw [ht] at h
  simp only [Option.map_eq_none_iff] at h
  unfold mergeNodes at h
  split at h
  · simp at h
  rename_i r c1 c2 hi
  refine ⟨t, r, c1, c2, ht, hi, ?_⟩
  split at h
  · rename_i hsft
    left
    have hsym : ∀ a b : List Nm, (setDiff a b).length = (setDiff b a).length := fun a b => by
      unfold setDiff
      rw [List.length_append, List.length_append, Nat.add_comm]
    have hshift : ∀ {p q : Chain}, shiftStem r p q t = none → p.tail.length ≤ 1 ∧ (setDiff p.keys q.keys).length ≤ 12 := by
      intro p q hn
      unfold shiftStem at hn
      split at hn
      swap
      · simp at hn
      rename_i hf
      refine ⟨?_, by simpa [fewLeft] using hf⟩
      split at hn
      · rename_i he
        rw [he]
        simp
      · rename_i e1 tail1 he
        dsimp only at hn
        split at hn
        · split at hn
          · rw [he]; simp
          · simp at hn
        · simp at hn
    split at hsft
    · rename_i hle
      obtain ⟨a1, a2⟩ := hshift hsft
      exact ⟨by omega, by rw [hsym]; exact a2⟩
    · obtain ⟨a1, a2⟩ := hshift hsft
      exact ⟨by omega, a2⟩
  · rename_i t1 p q hsft
    right
    split at h
    · rename_i hm
      exact ⟨t1, p, q, _, hsft, .inl rfl, hchain hm⟩
    · rename_i f hf
      split at h
      · rename_i hm
        exact ⟨t1, p, q, _, hsft, .inr ⟨f, hf, rfl⟩, hchain hm⟩
      · simp at h

/-- C60: if every step is small, the order is that of the tree: nothing is searched and nothing fails. -/
theorem c60_small {D : Nm → Nat} (hperm : ∀ l, (perm l).Perm l) {g : TN τ} (hc : g.Consistent) (hl : g.Loose D) (hx : NoFix g)
    {o : List OrderStep} (hv : ValidOrder g.nodes.keys o (.str "#")) (h2 : Pairwise2 o) (hs : SingleAssignment g.nodes.keys o)
    (hsmall : ∀ t, fromOrder perm g o = some t → t.info T = none) :
    ∃ o', stemPatch perm mt T width k g o = some o' ∧ ValidOrder g.nodes.keys o' (.str "#") ∧ Pairwise2 o' ∧ (o'.map (·.2)).Perm (o.map (·.2)) := by
  obtain ⟨t, ht⟩ := fromOrder_some hperm hc hl hx hv h2 hs
  have hT := fromOrder_spec hv h2 hs ht
  obtain ⟨k1, k2, _⟩ := PTree.order_valid hT.lv hT.nodup
  rw [hT.name] at k1
  refine ⟨t.fullOrder, ?_, k1, k2, ?_⟩
  · unfold stemPatch mergeNodes
    rw [ht]
    dsimp only
    rw [hsmall t ht]
    rfl
  · rw [← Multiset.coe_eq_coe, PTree.fullOrder_names, hT.inn]

section
variable {R : Type} [CommSemiring R] [Star R] {L : Type} [AddCommMonoid L] {contract : TVal R → Option (Arr R)}
  {tn tn' : TN (TVal R)} {srt : List Nm → List Nm} {E : Engine L R} {ex : L → R} {memory thres : Nat} {p : Plan}

/-- C60, with the compiler: compiling with `do_patch=True` and the search of `ContractionTree.patch`, if it does not raise, gives
the Einstein sum and the same array as without patching.  Partial: as `c59_patch_partial` (where the search was any sound one), and the stem
given to the search must be a line. -/
theorem c60_compile_partial (hmt : MatchOK mt) (hE : E.Sound ex) (hsrt : ∀ l, (srt l).Perm l) (hperm : ∀ l, (perm l).Perm l)
    (hC : Completable contract tn) (hF : ClosedFixOK tn)
    (hd : tn.completeDelta = (tn', .ok ())) (hsl : SliceOK tn' p.slices)
    (hev : (∃ d, tn'.Even d) ∨ NoFix tn' ∧ p.slices = []) (hv : ValidOrder tn'.nodes.keys p.order (.str "#"))
    (hsa : SingleAssignment tn'.nodes.keys p.order) (h2 : Pairwise2 p.order)
    (hmem : p.width * 3 * 2 ^ 4 ≤ memory * 2 ^ 30)
    (hlin : ∀ g o t, largeSteps perm thres (tn'.pruned p.slices) p.order p.slices = some (g, o) → fromOrder perm g o = some t → StemLinear T t)
    {r : Arr R} (h : tn.compileExecPatch perm thres (stemPatch perm mt T width k) contract memory srt E ex p = .ok r) :
    Represents TVal.val tn r ∧ ∃ r', tn.compileExec contract memory srt E ex p = .ok r' ∧ SameArr r r' := by
  classical
  let patch' : TN (TVal R) → List OrderStep → Option (List OrderStep) := fun g o =>
    if ∀ t, fromOrder perm g o = some t → StemLinear T t then some ((stemPatch perm mt T width k g o).getD o) else some o
  have hsound : PatchSound patch' := by
    intro g o hv h2 hs _
    by_cases hl : ∀ t, fromOrder perm g o = some t → StemLinear T t
    · cases hp : stemPatch perm mt T width k g o with
      | none => exact ⟨o, .str "#", by simp only [patch', if_pos hl, hp]; rfl, hv, h2⟩
      | some o' =>
        obtain ⟨k1, k2, _⟩ := c60_patch_partial hmt hv h2 hs hl hp
        exact ⟨o', .str "#", by simp only [patch', if_pos hl, hp]; rfl, k1, k2⟩
    · exact ⟨o, .str "#", by simp only [patch', if_neg hl], hv, h2⟩
  obtain ⟨r1, r', m1, m2, m3, m4⟩ := c59_patch_partial (thres := thres) (memory := memory) (p := p) hE hsrt hperm hsound hC hF hd hsl hev hv hsa h2 hmem
  have hr : tn.compileExecPatch perm thres patch' contract memory srt E ex p = .ok r := by
    unfold TN.compileExecPatch at h ⊢
    rw [hd] at h ⊢
    dsimp only at h ⊢
    cases hg : compilePatch (L := L) perm thres (stemPatch perm mt T width k) contract memory tn' p with
    | error e =>
      rw [hg] at h
      simp [runCompiled] at h
    | ok x =>
      rw [hg] at h
      have : compilePatch (L := L) perm thres patch' contract memory tn' p = .ok x := by
        rw [← hg]
        unfold compilePatch compileGen at hg ⊢
        split at hg
        · simp at hg
        rename_i hm
        rw [if_neg hm, if_neg hm]
        split at hg
        · simp at hg
        rename_i shape hsh
        dsimp only
        have hgen : genTemplatePatch (R := R) perm thres patch' tn' p.order p.slices shape =
            genTemplatePatch perm thres (stemPatch perm mt T width k) tn' p.order p.slices shape := by
          unfold genTemplatePatch at hg ⊢
          cases ho : orderPatch perm thres (stemPatch perm mt T width k) (TN.fixAll { tn' with openE := tn'.openE ++ p.slices }).dropDangling p.order p.slices with
          | error e => rw [ho] at hg; simp at hg
          | ok y =>
            rw [orderPatch_agree (patch' := patch') (fun g o o' hls hp => ?_) ho]
            have hl : ∀ t, fromOrder perm g o = some t → StemLinear T t := fun t ht => hlin g o t hls ht
            simp only [patch', if_pos hl, hp]
            rfl
        rw [hgen]
      rw [this]
      exact h
  rw [m1, Except.ok.injEq] at hr
  subst hr
  exact ⟨m2, r', m3, m4⟩

end

/-! ## Concrete cases -/

/-- A matching: the first pair of different vertices. -/
def firstMatch (l : List ((Int × Int) × Nat)) : List (Int × Int) :=
  match l.find? fun p => p.1.1 != p.1.2 with
  | some p => [p.1]
  | none => []

theorem firstMatch_ok : MatchOK firstMatch := by
  refine ⟨fun l p hp => ?_, fun l p hp => ?_, fun l => ?_⟩
  all_goals unfold firstMatch at *
  all_goals split at *
  · rename_i q hq
    rw [List.mem_singleton] at hp
    exact ⟨q.2, .inl (by rw [hp]; exact List.mem_of_find?_eq_some hq)⟩
  · simp at hp
  · rename_i q hq
    rw [List.mem_singleton] at hp
    have := List.find?_some hq
    rw [hp]
    simpa using this
  · simp at hp
  · exact List.pairwise_singleton _ _
  · exact List.Pairwise.nil

/-- A tensor with 24 legs, four matrices on the first four of them, and a vector on the last. -/
def stemNet : TN Shp := (TN.run {} ([sliceTen 0 (List.range 24), sliceTen 1 [23], sliceTen 2 [0, 30], sliceTen 3 [1, 31], sliceTen 4 [2, 32], sliceTen 5 [3, 33]] ++
  (([30, 31, 32, 33] ++ List.range' 4 19).map fun e => Op.openEdge (.int (100 + e)) none))).getD {}

/-- One matrix after the other, and then the vector. -/
def stemOrder : List OrderStep :=
  [([.int 5, .int 0], .str "q3"), ([.int 4, .str "q3"], .str "q2"), ([.int 3, .str "q2"], .str "q1"), ([.int 2, .str "q1"], .str "q0"), ([.int 1, .str "q0"], .str "#")]

/-- The stem is a line, as a program. -/
def linearB (T : Nat) : PTree → Bool
  | .leaf _ _ => true
  | .node _ _ s a b => !decide (T ≤ s.length) || ((a.chain T).isEmpty && linearB T b)

theorem linear_of_B {T : Nat} : ∀ {t : PTree}, linearB T t = true → t.Linear T
  | .leaf _ _, _ => trivial
  | .node _ _ s a b, h => by
    intro hT
    simp only [linearB, hT, decide_true, Bool.not_true, Bool.false_or, Bool.and_eq_true, List.isEmpty_iff] at h
    exact ⟨h.1, linear_of_B h.2⟩

theorem stemLinear_of_B {T : Nat} {x : Option PTree} (h : (x.bind fun t => (t.info T).map fun c => linearB T c.2.1.head && linearB T c.2.2.head) = some true) :
    ∀ t, x = some t → StemLinear T t := by
  rintro t rfl r c1 c2 hi
  rw [Option.bind_some, hi, Option.map_some, Option.some.injEq, Bool.and_eq_true] at h
  exact ⟨linear_of_B h.1, linear_of_B h.2⟩

/-- `c60_patch_partial`: the two outer matrices are multiplied first. -/
example : ∃ o', stemPatch id firstMatch 23 5 14 stemNet stemOrder = some o' ∧ ([.int 3, .int 2], .str "q1") ∈ o' ∧
    ValidOrder stemNet.nodes.keys o' (.str "#") ∧ Pairwise2 o' := by
  have h : (stemPatch id firstMatch 23 5 14 stemNet stemOrder).map (fun o' => decide (([.int 3, .int 2], .str "q1") ∈ o')) = some true := by decide +kernel
  rw [Option.map_eq_some_iff] at h
  obtain ⟨o', h1, h2⟩ := h
  obtain ⟨k1, k2, k3⟩ := goodOrder_of_B (o := stemOrder) (ns := stemNet.nodes.keys) (by decide +kernel)
  obtain ⟨m1, m2, _⟩ := c60_patch_partial firstMatch_ok k1 k3 k2 (stemLinear_of_B (by decide +kernel)) h1
  exact ⟨o', h1, of_decide_eq_true h2, m1, m2⟩

/-- A node whose legs have dimension two and whose entries are sums of indices. -/
def sumTen (k : Nat) (l : List Nat) : Op (TVal Nat) :=
  .addNode (some (.int k)) (.int k) (some (l.map fun e => .int (100 + e))) (arrVal (l.map fun _ => 2) fun i => i.sum + 1) false

/-- Running a scheme with patching, with the search of the code and the plain engine. -/
def stemRun (thres : Nat) (tn : TN (TVal Nat)) (p : Plan) : Except Err (Arr Nat) :=
  tn.compileExecPatch id thres (stemPatch id firstMatch 23 5 14) arrContract 16 id plainEngine (fun _ => 1) p

/-- A check for a `KeyError` or `IndexError`. -/
def isKeyErr {α : Type} : Except Err α → Bool
  | .error .key => true
  | _ => false

/-- A check for success. -/
def isFine {α : Type} : Except Err α → Bool
  | .ok _ => true
  | _ => false

theorem eq_of_isKeyErr {α : Type} {x : Except Err α} (h : isKeyErr x = true) : x = .error .key := by
  unfold isKeyErr at h
  split at h
  · rfl
  · simp at h

/-- Two tensors with 28 common indices, with a matrix on one of them. -/
def dotOps : List (Op (TVal Nat)) := [sumTen 0 (List.range 28), sumTen 1 [0, 28], sumTen 2 (28 :: List.range' 1 27)]

/-- First the matrix. -/
def dotOrder : List OrderStep := [([.int 0, .int 1], .str "x"), ([.str "x", .int 2], .str "#")]

/-- **C60 fails** for the inner product of two tensors with 28 indices: at most twelve indices are left at the beginning of the stem, and
the shorter chain has no second branch, so an `IndexError` is raised (contraction_tree.py:186-188). -/
theorem c60_index_violated : ∃ tn : TN (TVal Nat), TN.run {} dotOps = some tn ∧ GoodOrder tn.nodes.keys dotOrder ∧
    stemRun 28 tn ⟨0, dotOrder, []⟩ = .error .key := by
  have h : (TN.run {} dotOps).map (fun tn => goodB tn.nodes.keys dotOrder && isKeyErr (stemRun 28 tn ⟨0, dotOrder, []⟩)) = some true := by decide +kernel
  rw [Option.map_eq_some_iff] at h
  obtain ⟨tn, h1, h2⟩ := h
  rw [Bool.and_eq_true] at h2
  exact ⟨tn, h1, goodOrder_of_B h2.1, eq_of_isKeyErr h2.2⟩

/-- A tensor with 33 legs, with vectors on four of them. -/
def vecStemOps : List (Op (TVal Nat)) :=
  [sumTen 0 (List.range 33), sumTen 1 [0], sumTen 2 [1], sumTen 3 [2], sumTen 4 [3]] ++ (List.range' 4 29).map fun e => Op.openEdge (.int (100 + e)) none

/-- One vector after the other. -/
def vecStemOrder : List OrderStep :=
  [([.int 1, .int 0], .str "q3"), ([.int 2, .str "q3"], .str "q2"), ([.int 3, .str "q2"], .str "q1"), ([.int 4, .str "q1"], .str "#")]

/-- **C60 fails** when the last two branches have no indices but those of the rest of the stem: the vertex −1 never gets an edge, so
`g.nodes[-1]` raises a `KeyError` (contraction_tree.py:155, 161). -/
theorem c60_branch_violated : ∃ tn : TN (TVal Nat), TN.run {} vecStemOps = some tn ∧ GoodOrder tn.nodes.keys vecStemOrder ∧
    stemRun 28 tn ⟨0, vecStemOrder, []⟩ = .error .key := by
  have h : (TN.run {} vecStemOps).map (fun tn => goodB tn.nodes.keys vecStemOrder && isKeyErr (stemRun 28 tn ⟨0, vecStemOrder, []⟩)) = some true := by decide +kernel
  rw [Option.map_eq_some_iff] at h
  obtain ⟨tn, h1, h2⟩ := h
  rw [Bool.and_eq_true] at h2
  exact ⟨tn, h1, goodOrder_of_B h2.1, eq_of_isKeyErr h2.2⟩

/-- Two products of a matrix and a large tensor, with one common index; and a vector. -/
def forkNet : TN Shp := (TN.run {} ([sliceTen 0 [0, 1], sliceTen 1 (0 :: List.range' 2 23), sliceTen 2 [50, 90], sliceTen 3 (1 :: 50 :: List.range' 60 23), sliceTen 4 [2]] ++
  ((90 :: (List.range' 3 22 ++ List.range' 60 23)).map fun e => Op.openEdge (.int (100 + e)) none))).getD {}

/-- Both products first. -/
def forkOrder : List OrderStep :=
  [([.int 0, .int 1], .str "a"), ([.int 2, .int 3], .str "b"), ([.str "a", .str "b"], .str "q"), ([.int 4, .str "q"], .str "#")]

/-- **C60 fails** when both operands of a large step are large results themselves: the branches of both are put into one chain, and
the order found uses tensors twice. -/
theorem c60_stem_violated : GoodOrder forkNet.nodes.keys forkOrder ∧
    ∃ o', stemPatch id firstMatch 23 5 14 forkNet forkOrder = some o' ∧ ([.int 0, .str "b"], .int 1) ∈ o' ∧ ([.int 0, .int 1], .str "a") ∈ o' ∧
      ∀ last, ¬ ValidOrder forkNet.nodes.keys o' last := by
  refine ⟨goodOrder_of_B (by decide +kernel), ?_⟩
  have h : (stemPatch id firstMatch 23 5 14 forkNet forkOrder).map (fun o' => decide (([.int 0, .str "b"], .int 1) ∈ o' ∧ ([.int 0, .int 1], .str "a") ∈ o' ∧
      (o'.flatMap (·.1)).length + 1 ≠ forkNet.nodes.keys.length + o'.length)) = some true := by decide +kernel
  rw [Option.map_eq_some_iff] at h
  obtain ⟨o', h1, h2⟩ := h
  obtain ⟨h3, h4, h5⟩ := of_decide_eq_true h2
  refine ⟨o', h1, h3, h4, fun last hv => h5 ?_⟩
  have := (validOrder_iff.1 hv).balance.length_eq
  simpa using this

/-! ### Compiling with the search -/

/-- All names are numbers. -/
def TN.intNamesB {τ : Type} (tn : TN τ) : Bool := (tn.edges.keys ++ tn.nodes.keys).all fun x => match x with
  | .int _ => true
  | _ => false

theorem TN.fresh_of_int {τ : Type} {tn : TN τ} (h : tn.intNamesB = true) : DeltaFresh tn ∧ DeltaNodeFresh tn ∧ .str "*" ∉ tn.nodes.keys := by
  have hb := List.all_eq_true.1 h
  refine ⟨fun e _ k _ hc => ?_, fun e _ k hc => ?_, fun hc => ?_⟩
  · have := hb _ (List.mem_append_left _ hc)
    simp [deltaEdge, Nm.pair] at this
  · have := hb _ (List.mem_append_right _ hc)
    simp [deltaNode, Nm.triple] at this
  · have := hb _ (List.mem_append_right _ hc)
    simp at this

theorem named_fresh {τ : Type} [NetTensor τ] {ops : List (Op τ)} (h : ∀ op ∈ ops, ∀ tn : TN τ, FreshOp tn op) : ∀ tn : TN τ, FreshIdents tn ops := by
  induction ops with
  | nil => exact fun _ => trivial
  | cons op ops ih => exact fun tn => ⟨h op List.mem_cons_self tn, ih (fun o ho => h o (List.mem_cons_of_mem _ ho)) _⟩

/-- `stemNet` with numbers. -/
def stemOps : List (Op (TVal Nat)) :=
  [sumTen 0 (List.range 24), sumTen 1 [23], sumTen 2 [0, 30], sumTen 3 [1, 31], sumTen 4 [2, 32], sumTen 5 [3, 33]] ++
    ([30, 31, 32, 33] ++ List.range' 4 19).map fun e => Op.openEdge (.int (100 + e)) none

/-- What has to be checked of a network and its completion. -/
def stemCheck (tn : TN (TVal Nat)) (order : List OrderStep) : Bool :=
  tn.dimsKnownB && tn.readyB && tn.intNamesB && tn.arraysB && tn.closedFixB &&
    (match tn.completeDelta with
    | (tn', .ok ()) => goodB tn'.nodes.keys order && (tn'.edges.all fun p => p.2.fix.isNone) &&
      (match largeSteps id 0 (tn'.pruned []) order [] with
      | some (g, o) => match fromOrder id g o with
        | some t => match t.info 23 with
          | some c => linearB 23 c.2.1.head && linearB 23 c.2.2.head
          | none => true
        | none => true
      | none => true)
    | _ => false) && isFine (stemRun 0 tn ⟨0, order, []⟩)

set_option maxRecDepth 4000 in
/-- `c60_compile_partial` applies: a state of 23 open legs. -/
example : ∃ (tn : TN (TVal Nat)) (r : Arr Nat), TN.run {} stemOps = some tn ∧ stemRun 0 tn ⟨0, stemOrder, []⟩ = .ok r ∧ Represents TVal.val tn r := by
  have h : (TN.run {} stemOps).map (fun tn => stemCheck tn stemOrder) = some true := by decide +kernel
  rw [Option.map_eq_some_iff] at h
  obtain ⟨tn, h0, h1⟩ := h
  have hc : tn.Consistent := c11_consistent_partial (named_fresh (by
    intro op hop
    simp only [stemOps, List.mem_append, List.mem_map, List.mem_cons, List.not_mem_nil, or_false, sumTen] at hop
    rcases hop with (rfl | rfl | rfl | rfl | rfl | rfl) | ⟨e, _, rfl⟩ <;> exact fun _ => trivial) {}) h0
  simp only [stemCheck, Bool.and_eq_true] at h1
  obtain ⟨⟨⟨⟨⟨⟨k1, k2⟩, k3⟩, k4⟩, k5⟩, k6⟩, k7⟩ := h1
  split at k6
  swap
  · simp at k6
  rename_i tn' hd
  simp only [Bool.and_eq_true] at k6
  obtain ⟨⟨g1, g2⟩, g3⟩ := k6
  obtain ⟨f1, f2, f3⟩ := TN.fresh_of_int k3
  have hG := goodOrder_of_B g1
  cases hr : stemRun 0 tn ⟨0, stemOrder, []⟩ with
  | error e => rw [hr] at k7; simp [isFine] at k7
  | ok r =>
    refine ⟨tn, r, h0, hr, ?_⟩
    refine (c60_compile_partial (mt := firstMatch) (T := 23) (width := 5) (k := 14) (p := ⟨0, stemOrder, []⟩) (contract := arrContract)
      firstMatch_ok plainEngine_sound (srt := id) (fun l => List.Perm.refl l)
      (perm := id) (fun l => List.Perm.refl l) ⟨hc, TN.dimsKnown_of_B hc k1, TN.ready_of_readyB k2, f1, f2, f3, tens_of_arraysB k4, fun _ => rfl⟩
      (closedFix_of_B k5) hd ⟨by simp, by simp, by simp⟩ (Or.inr ⟨?_, rfl⟩) hG.valid hG.single hG.pairs (by simp) ?_ hr).1
    · intro e rr hrr
      simpa using List.all_eq_true.1 g2 _ (Dict.mem_of_get? hrr)
    · intro g o t hls ht r c1 c2 hi
      simp only [hls, ht, hi, Bool.and_eq_true] at g3
      exact ⟨linear_of_B g3.1, linear_of_B g3.2⟩

/-- Two tensors with `n` common indices. -/
def innerOps (n : Nat) : List (Op Shp) := [sliceTen 0 (List.range n), sliceTen 1 (List.range n)]

theorem inner_ok {n : Nat} {tn : TN Shp} (h : TN.run {} (innerOps n) = some tn)
    (hb : (tn.readyB && goodB tn.nodes.keys [([.int 0, .int 1], .str "#")] && tn.edges.all fun p => p.2.fix.isNone) = true) :
    tn.Consistent ∧ tn.Loose tn.dimOf ∧ NoFix tn ∧ GoodOrder tn.nodes.keys [([.int 0, .int 1], .str "#")] := by
  simp only [Bool.and_eq_true] at hb
  refine ⟨c11_consistent_partial (ops := innerOps n) ⟨trivial, trivial, trivial⟩ h, (TN.ready_of_readyB hb.1.1).loose, fun e r hr => ?_, goodOrder_of_B hb.1.2⟩
  simpa using List.all_eq_true.1 hb.2 _ (Dict.mem_of_get? hr)

/-- `c60_fails` with 23 indices, `c60_small` with 22. -/
example : (∃ tn : TN Shp, TN.run {} (innerOps 23) = some tn ∧ tn.Consistent ∧ tn.Loose tn.dimOf ∧ NoFix tn ∧
      GoodOrder tn.nodes.keys [([.int 0, .int 1], .str "#")] ∧ stemPatch id firstMatch 23 5 14 tn [([.int 0, .int 1], .str "#")] = none) ∧
    ∃ tn : TN Shp, TN.run {} (innerOps 22) = some tn ∧ ∃ o', stemPatch id firstMatch 23 5 14 tn [([.int 0, .int 1], .str "#")] = some o' ∧
      ValidOrder tn.nodes.keys o' (.str "#") := by
  constructor
  · have h : (TN.run {} (innerOps 23)).map (fun tn => (tn.readyB && goodB tn.nodes.keys [([.int 0, .int 1], .str "#")] && tn.edges.all fun p => p.2.fix.isNone) &&
        (stemPatch id firstMatch 23 5 14 tn [([.int 0, .int 1], .str "#")]).isNone) = some true := by decide +kernel
    rw [Option.map_eq_some_iff] at h
    obtain ⟨tn, h0, h1⟩ := h
    rw [Bool.and_eq_true] at h1
    obtain ⟨k1, k2, k3, k4⟩ := inner_ok h0 h1.1
    exact ⟨tn, h0, k1, k2, k3, k4, Option.isNone_iff_eq_none.1 h1.2⟩
  · have h : (TN.run {} (innerOps 22)).map (fun tn => (tn.readyB && goodB tn.nodes.keys [([.int 0, .int 1], .str "#")] && tn.edges.all fun p => p.2.fix.isNone) &&
        ((fromOrder id tn [([.int 0, .int 1], .str "#")]).all fun t => (t.info 23).isNone)) = some true := by decide +kernel
    rw [Option.map_eq_some_iff] at h
    obtain ⟨tn, h0, h1⟩ := h
    rw [Bool.and_eq_true] at h1
    obtain ⟨k1, k2, k3, k4⟩ := inner_ok h0 h1.1
    obtain ⟨o', m1, m2, _⟩ := c60_small (mt := firstMatch) (width := 5) (k := 14) (perm := id) (fun l => List.Perm.refl l) k1 k2 k3 k4.valid k4.pairs k4.single (T := 23) (fun t ht => by
      have := h1.2
      rw [ht, Option.all_some] at this
      exact Option.isNone_iff_eq_none.1 this)
    exact ⟨tn, h0, o', m1, m2⟩

end Verif
