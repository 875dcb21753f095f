import Verif.Model.Finder
import Verif.Props.Slicer
import Verif.Props.SlicerChoice
/-!
# C62: contraction does not depend on the order finder

All finders of `get_order_finder` (order_finder.py) with both slicers (slicer.py), and `contract` with each of them.
-/

namespace Verif

section
variable {R : Type} [CommSemiring R] [Star R]

/-! ## Completing twice -/

omit [Star R] in
theorem deltaOpen_canonical : ∀ (l : List Nm) (i : Nat) (tn : TN (TVal R)) (names : Dict Nm Nat), l.Nodup → (∀ e ∈ l, e ∉ names.keys) →
    ∃ names', forLoop TN.deltaOpen1 ((List.range' i l.length).zip l) (tn, names) = ((tn, names'), .ok ()) ∧
      ∀ p ∈ names', p ∈ names ∨ (p.1 ∈ l ∧ p.2 = 0) := by
  intro l
  induction l with
  | nil => intro i tn names _ _; exact ⟨names, rfl, fun p hp => Or.inl hp⟩
  | cons e l ih =>
    intro i tn names hnd hnew
    rw [List.nodup_cons] at hnd
    have hget : names.get? e = none := by
      rw [Dict.get?_eq_none]
      exact hnew e (by simp)
    have hset : names.set e 0 = names ++ [(e, 0)] := Dict.set_eq_append (hnew e (by simp)) 0
    obtain ⟨names', h1, h2⟩ := ih (i + 1) tn (names.set e 0) hnd.2 fun e' he' hc => by
      rw [hset] at hc
      simp only [Dict.keys, List.map_append, List.map_cons, List.map_nil, List.mem_append, List.mem_singleton] at hc
      rcases hc with hc | rfl
      · exact hnew e' (by simp [he']) hc
      · exact hnd.1 he'
    refine ⟨names', ?_, fun p hp => ?_⟩
    · rw [List.length_cons, List.range'_succ, List.zip_cons_cons, forLoop]
      have : TN.deltaOpen1 (tn, names) (i, e) = ((tn, names.set e 0), .ok ()) := by
        unfold TN.deltaOpen1
        dsimp only
        rw [hget]
      rw [this]
      exact h1
    · rcases h2 p hp with h | ⟨h, h'⟩
      · rw [hset, List.mem_append, List.mem_singleton] at h
        rcases h with h | rfl
        · exact Or.inl h
        · exact Or.inr ⟨by simp, rfl⟩
      · exact Or.inr ⟨List.mem_cons_of_mem _ h, h'⟩

omit [Star R] in
/-- C44: completing a network that is already in the form einsum accepts changes nothing, so completing twice is completing once. -/
theorem c44_idempotent {tn : TN (TVal R)} (hc : tn.Consistent) (h : tn.Canonical) : tn.completeDelta = (tn, .ok ()) := by
  unfold TN.completeDelta
  split
  · rfl
  unfold TN.deltaBody
  dsimp only
  rw [if_neg (by simpa using h.nonempty)]
  dsimp only
  obtain ⟨names, h1, h2⟩ := deltaOpen_canonical tn.openE 0 tn [] h.nodup (by simp [Dict.keys])
  rw [List.range_eq_range', h1]
  dsimp only
  have : ∀ l : Dict Nm Nat, (∀ p ∈ l, p ∈ names) → forLoop (TN.deltaDiag1 fun e => tn.adj.any fun p => p.2 == e) l tn = (tn, .ok ()) := by
    intro l
    induction l with
    | nil => intro _; rfl
    | cons p l ih =>
      intro hl
      have hp : p.1 ∈ tn.openE ∧ p.2 = 0 := by
        rcases h2 p (hl p (by simp)) with h | h
        · simp at h
        · exact h
      obtain ⟨r, hr⟩ := Dict.exists_get? (hc.open_exist p.1 hp.1)
      obtain ⟨n, nr, hn, hleg⟩ := h.attached p.1 hp.1
      have hadj : (tn.adj.any fun q => q.2 == p.1) = true := by
        rw [List.any_eq_true]
        exact ⟨(n, p.1), (hc.adj_iff n p.1).2 ⟨nr, hn, hleg⟩, by simp⟩
      have hstep : TN.deltaDiag1 (fun e => tn.adj.any fun q => q.2 == e) tn p = (tn, .ok ()) := by
        unfold TN.deltaDiag1
        rw [hr]
        dsimp only
        rw [h.unfixed p.1 hp.1 r hr, if_neg]
        simp [hadj]
      rw [forLoop, hstep]
      exact ih fun q hq => hl q (List.mem_cons_of_mem _ hq)
  exact this names fun p hp => hp

/-! ## The orders of the finders -/

/-- What the outside world gives are sorted lists, paths and partitions. -/
def PlainFinder.Good : PlainFinder → Prop
  | .names srt path => (∀ l l', srt l = some l' → l'.Perm l) ∧ GoodPaths path
  | .einsum whole path => (∀ i ns, 2 ≤ ns.length → ValidPath ns.length (whole i ns) ∧ ∀ p ∈ whole i ns, p.length = 2) ∧ ∀ i, GoodPaths (path i)
  | .hyper part _ path _ => (∀ i s top g j, part i s top g j < s / 2 + 3) ∧ ∀ i, GoodPaths (path i)

/-- No node has a name the finders use for intermediate tensors. -/
def NoHash {τ : Type} (tn : TN τ) : Prop := .str "#" ∉ tn.nodes.keys ∧ ∀ j, Nm.pair (.str "#") (.int j) ∉ tn.nodes.keys

omit [Star R] in
theorem PlainFinder.orderAt_complete {tn tn' : TN (TVal R)} (hd : tn.completeDelta = (tn', .ok ())) (hc : tn'.Consistent) (hcan : tn'.Canonical)
    (f : PlainFinder) (i : Nat) : f.orderAt tn' i = f.orderAt tn i := by
  unfold PlainFinder.orderAt
  rw [hd, c44_idempotent hc hcan]

omit [Star R] in
/-- Every order of a finder is one of the nodes of the completed network. -/
theorem PlainFinder.orderAt_spec {f : PlainFinder} (hf : f.Good) {tn : TN (TVal R)} (hc : tn.Consistent) (hcan : tn.Canonical) (hh : NoHash tn)
    {i : Nat} {o : List OrderStep} (h : f.orderAt tn i = some o) :
    (o = [] ∧ tn.nodes.keys.length ≤ 1) ∨ (ValidOrder tn.nodes.keys o (.str "#") ∧ SingleAssignment tn.nodes.keys o ∧
      ((∀ part cutoff path cost, f ≠ .hyper part cutoff path cost) → Pairwise2 o)) := by
  unfold PlainFinder.orderAt at h
  rw [c44_idempotent hc hcan] at h
  dsimp only at h
  cases f with
  | names srt path =>
    dsimp only at h
    rw [Option.bind_eq_some_iff] at h
    obtain ⟨l, hl, h⟩ := h
    have hperm := hf.1 _ _ hl
    have key : ∀ l', ((fun x => if x = tn.nodes.keys then l else x) l').Perm l' := by
      intro l'
      dsimp only
      split
      · rename_i h; rw [h]; exact hperm
      · exact List.Perm.refl _
    have h' : findDefault (fun x => if x = tn.nodes.keys then l else x) path tn.nodes.keys = some o := by
      rw [← h]
      unfold findDefault
      simp
    by_cases h2 : 2 ≤ tn.nodes.keys.length
    · obtain ⟨o', e1, e2, e3, e4, _⟩ := c31_default_partial key hf.2 hc.nodes_nodup h2 hh.1 hh.2
      rw [h', Option.some.injEq] at e1
      subst e1
      exact Or.inr ⟨e2, e4, fun _ => e3⟩
    · rw [c31_default_small key path (by omega), Option.some.injEq] at h'
      exact Or.inl ⟨h'.symm, by omega⟩
  | einsum whole path =>
    dsimp only at h
    by_cases h2 : 2 ≤ tn.nodes.keys.length
    · obtain ⟨a1, a2⟩ := hf.1 i _ h2
      obtain ⟨o', e1, e2, e3, e4⟩ := c32_opt_einsum_partial (hf.2 i) hc.nodes_nodup h2 a1 a2 hh.1 fun j _ => hh.2 j
      rw [h, Option.some.injEq] at e1
      subst e1
      exact Or.inr ⟨e2, e4, fun _ => e3⟩
    · unfold findOptEinsum at h
      rw [if_neg (by omega), Option.some.injEq] at h
      exact Or.inl ⟨h.symm, by omega⟩
  | hyper part cutoff path cost =>
    dsimp only at h
    obtain ⟨e1, e2, _⟩ := c56_order_partial (hf.1 i) (hf.2 i) hc hh.1 (fun j _ => hh.2 j) h
    exact Or.inr ⟨e1, e2, fun h => absurd rfl (h _ _ _ _)⟩

/-! ## The slicers -/

theorem mapM_mem_some {A B : Type} {f : A → Option B} : ∀ {l : List A} {r : List B}, l.mapM f = some r → ∀ {b : B}, b ∈ r → ∃ a ∈ l, f a = some b
  | [], r, h, b, hb => by
    simp only [List.mapM_nil, Option.pure_def, Option.some.injEq] at h
    subst h
    simp at hb
  | a :: l, r, h, b, hb => by
    simp only [List.mapM_cons, Option.pure_def, Option.bind_eq_bind, Option.bind_eq_some_iff, Option.some.injEq] at h
    obtain ⟨c, h1, t, h2, rfl⟩ := h
    rcases List.mem_cons.1 hb with rfl | hb
    · exact ⟨a, by simp, h1⟩
    · obtain ⟨a', h3, h4⟩ := mapM_mem_some h2 hb
      exact ⟨a', List.mem_cons_of_mem _ h3, h4⟩


/-- What the outside world gives to a finder. -/
def Finder.Good : Finder R → Prop
  | .plain f _ => f.Good
  | .sliced f S => f.Good ∧ ∀ i, (S.env i).Good
  | .mp f S _ => f.Good ∧ ∀ i, (S.env i).Good

omit [CommSemiring R] [Star R] in
theorem Finder.Good.base {F : Finder R} (h : F.Good) : F.base.Good := by
  cases F with
  | plain => exact h
  | sliced => exact h.1
  | mp => exact h.1

theorem bestCand_mem {l : List (Sch × List Nm)} {x : Sch × List Nm} (h : bestCand l = some x) : x ∈ l := by
  cases l with
  | nil => simp [bestCand] at h
  | cons y l =>
    simp only [bestCand, Option.some.injEq] at h
    have : ∀ (l : List (Sch × List Nm)) (b : Sch × List Nm),
        l.foldl (fun b a => if !(a.1.cost.eq b.1.cost) && a.1.cost.lt b.1.cost then a else b) b ∈ b :: l := by
      intro l
      induction l with
      | nil => intro b; simp
      | cons a l ih =>
        intro b
        rw [List.foldl_cons]
        split
        · exact List.mem_cons_of_mem _ (ih a)
        · rcases List.mem_cons.1 (ih b) with h | h
          · rw [h]; simp
          · exact List.mem_cons_of_mem _ (List.mem_cons_of_mem _ h)
    rw [← h]
    exact this l y

theorem bestCand_sch (l : List (Sch × List Nm)) : (bestCand l).map (·.1) = bestSch (l.map (·.1)) := by
  cases l with
  | nil => rfl
  | cons y l =>
    simp only [bestCand, List.map_cons, bestSch, Option.map_some, Option.some.injEq]
    induction l generalizing y with
    | nil => rfl
    | cons a l ih =>
      rw [List.foldl_cons, List.map_cons, List.foldl_cons, ih]
      congr 1
      split <;> rfl

omit [Star R] in
/-- Every candidate of the processes is what slicing one of the orders gave. -/
theorem mpLoop_mem {f : PlainFinder} {S : SliceUse R} {tn : TN (TVal R)} : ∀ {fuel r : Nat} {cands res : List (Sch × List Nm)},
    mpLoop f S tn fuel r cands = some res → S.num < res.length ∧ ∃ new, res = cands ++ new ∧
      ∀ x ∈ new, ∃ i y, f.schAt S tn (i + 1) = some y ∧ sliceScheme S.params (S.env i) tn [y] = some (some x) := by
  intro fuel
  induction fuel with
  | zero => intro r cands res h; simp [mpLoop] at h
  | succ fuel ih =>
    intro r cands res h
    unfold mpLoop at h
    split at h
    · split at h
      · simp at h
      rename_i new hnew
      obtain ⟨h1, new', h2, h3⟩ := ih h
      refine ⟨h1, new.filterMap id ++ new', by rw [h2, List.append_assoc], fun x hx => ?_⟩
      rcases List.mem_append.1 hx with hx | hx
      · rw [List.mem_filterMap] at hx
        obtain ⟨a, ha, hax⟩ := hx
        unfold mpRound at hnew
        obtain ⟨j, _, hj⟩ := mapM_mem_some hnew ha
        rw [Option.bind_eq_some_iff] at hj
        obtain ⟨y, hy, hj⟩ := hj
        refine ⟨r * S.threads + j, y, ?_, ?_⟩
        · rw [← hy]; congr 1; omega
        · rw [hj]; exact congrArg some hax
      · exact h3 x hx
    · rename_i hlt
      rw [Option.some.injEq] at h
      subst h
      exact ⟨by omega, [], by simp, by simp⟩

theorem NoHash.complete {contract : TVal R → Option (Arr R)} {tn tn' : TN (TVal R)} (hh : NoHash tn) (hC : CompletableFor TVal.val contract tn)
    (hd : tn.completeDelta = (tn', .ok ())) : NoHash tn' := by
  obtain ⟨tn2, h3, _, _, _, _, _, _, _, _, h5, _⟩ := hC.complete
  rw [hd, Prod.mk.injEq] at h3
  obtain ⟨rfl, _⟩ := h3
  refine ⟨fun hc => ?_, fun j hc => ?_⟩
  · rcases h5 _ hc with h | h | ⟨e, k, h⟩
    · exact hh.1 h
    · simp at h
    · simp [deltaNode, Nm.triple] at h
  · rcases h5 _ hc with h | h | ⟨e, k, h⟩
    · exact hh.2 j h
    · simp [Nm.pair] at h
    · simp [deltaNode, Nm.triple, Nm.pair] at h

omit [Star R] in
/-- The result of a finder is an order it read, or what slicing orders it read gave. -/
theorem Finder.find_from {F : Finder R} {tn tn' : TN (TVal R)} (hd : tn.completeDelta = (tn', .ok ())) (hc : tn'.Consistent) (hcan : tn'.Canonical)
    {p : Plan} (h : F.find tn = some (some p)) :
    (∃ f cost, F = .plain f cost ∧ p.slices = [] ∧ f.orderAt tn 0 = some p.order ∧ p.width = (cost p.order).t) ∨
    ∃ f S, (F = .sliced f S ∨ ∃ fuel, F = .mp f S fuel) ∧ ∃ i orders res, (∀ y ∈ orders, ∃ j, f.orderAt tn (j + 1) = some y.order) ∧
      sliceScheme S.params (S.env i) tn' orders = some (some (res, p.slices)) ∧ p.order = res.order ∧ p.width = res.cost.t := by
  have key : ∀ {f : PlainFinder} {slice : TN (TVal R) → Option (Option (Sch × List Nm))}, withBase f tn slice = some (some p) →
      ∃ x, slice tn' = some (some x) ∧ p = ⟨x.1.cost.t, x.1.order, x.2⟩ := by
    intro f slice h
    unfold withBase at h
    rw [hd] at h
    dsimp only at h
    split at h
    · simp at h
    · rw [Option.map_eq_some_iff] at h
      obtain ⟨a, h1, h2⟩ := h
      rw [Option.map_eq_some_iff] at h2
      obtain ⟨x, rfl, h2⟩ := h2
      exact ⟨x, h1, h2.symm⟩
  have sch : ∀ {f : PlainFinder} {S : SliceUse R} {i : Nat} {y : Sch}, f.schAt S tn' i = some y → f.orderAt tn i = some y.order := by
    intro f S i y h
    unfold PlainFinder.schAt at h
    rw [f.orderAt_complete hd hc hcan, Option.map_eq_some_iff] at h
    obtain ⟨o, h1, h2⟩ := h
    rw [h1, ← h2]
  cases F with
  | plain f cost =>
    simp only [Finder.find, Option.map_eq_some_iff, Option.some.injEq] at h
    obtain ⟨o, h1, rfl⟩ := h
    exact Or.inl ⟨f, cost, rfl, rfl, h1, rfl⟩
  | sliced f S =>
    obtain ⟨x, h1, rfl⟩ := key h
    refine Or.inr ⟨f, S, Or.inl rfl, 0, ?_⟩
    unfold sliceFrom at h1
    split at h1
    · simp at h1
    rename_i orders ho
    refine ⟨orders, x.1, fun y hy => ?_, h1, rfl, rfl⟩
    obtain ⟨j, _, hj⟩ := mapM_mem_some ho hy
    exact ⟨j, sch hj⟩
  | mp f S fuel =>
    obtain ⟨x, h1, rfl⟩ := key h
    refine Or.inr ⟨f, S, Or.inr ⟨fuel, rfl⟩, ?_⟩
    unfold mpSlice at h1
    rw [Option.map_eq_some_iff] at h1
    obtain ⟨l, h1, h2⟩ := h1
    obtain ⟨_, new, h3, h4⟩ := mpLoop_mem h1
    rw [List.nil_append] at h3
    subst h3
    obtain ⟨i, y, h5, h6⟩ := h4 x (bestCand_mem h2)
    exact ⟨i, [y], x.1, fun z hz => by rw [List.mem_singleton.1 hz]; exact ⟨i, sch h5⟩, h6, rfl, rfl⟩

/-! ## Contraction with any finder -/

section
variable {L : Type} [AddCommMonoid L] {contract : TVal R → Option (Arr R)}
  {tn tn' : TN (TVal R)} {srt : List Nm → List Nm} {E : Engine L R} {ex : L → R} {memory : Nat}

/-- When a slicer is used there is something to slice, and the edges it slices are not all open ones of dimension one. -/
def Sliceable (tn' : TN (TVal R)) (F : Finder R) (p : Plan) : Prop :=
  (∃ f cost, F = .plain f cost) ∨ (2 ≤ tn'.nodes.keys.length ∧ LegsPos tn' ∧
    ((∀ e ∈ p.slices, e ∉ tn'.openE) ∨ ∃ e ∈ p.slices, tn'.edges.get? e ≠ some ⟨some 1, none⟩))

/-- **C62**: whichever finder is used, with whichever slicer, what `contract` computes is the Einstein sum of the network.  Partial:
the orders must be pairwise (those of the first two finders are, see `c62_pairs`), and a sliced network must have two nodes. -/
theorem c62_contract_partial (hE : E.Sound ex) (hsrt : ∀ l, (srt l).Perm l) (hC : CompletableFor TVal.val contract tn) (hF : ClosedFixOK tn)
    (hh : NoHash tn) (hd : tn.completeDelta = (tn', .ok ())) {F : Finder R} (hG : F.Good) {p : Plan} (h : F.find tn = some (some p))
    (hb : ∀ i o, F.base.orderAt tn i = some o → Pairwise2 o) (hpair : Pairwise2 p.order) (hw : p.width * 3 * 2 ^ 4 ≤ memory * 2 ^ 30)
    (hs : Sliceable tn' F p) :
    ∃ r, tn.contractBy contract memory F srt E ex = .ok r ∧ Represents TVal.val tn r := by
  obtain ⟨tn2, h1, hc, _, _, hcan, _⟩ := hC.complete
  rw [hd, Prod.mk.injEq] at h1
  obtain ⟨rfl, _⟩ := h1
  have hh' := hh.complete hC hd
  unfold TN.contractBy
  rw [h]
  dsimp only
  obtain ⟨f, cost, rfl, h2, h3, _⟩ | ⟨f, S, hFS, i, orders, res, h2, h3, h4, _⟩ := F.find_from hd hc hcan h
  · refine compileExec_spec hE hsrt hC hF hd ⟨?_, hw⟩ ⟨by simp [h2], by simp [h2], Or.inl (by simp [h2])⟩
    rw [← f.orderAt_complete hd hc hcan] at h3
    rcases PlainFinder.orderAt_spec hG hc hcan hh' h3 with k | k
    · exact Or.inl k.1
    · exact Or.inr ⟨_, k.1, hpair⟩
  · have hgood : f.Good ∧ ∀ i, (S.env i).Good := by
      rcases hFS with rfl | ⟨fuel, rfl⟩
      · exact hG
      · exact hG
    have hbase : F.base = f := by
      rcases hFS with rfl | ⟨fuel, rfl⟩ <;> rfl
    obtain ⟨a1, a2, a3⟩ : 2 ≤ tn'.nodes.keys.length ∧ LegsPos tn' ∧
        ((∀ e ∈ p.slices, e ∉ tn'.openE) ∨ ∃ e ∈ p.slices, tn'.edges.get? e ≠ some ⟨some 1, none⟩) := by
      rcases hs with ⟨f', cost, hs⟩ | hs
      · rcases hFS with rfl | ⟨fuel, rfl⟩ <;> simp at hs
      · exact hs
    have ho : ∀ y ∈ orders, GoodOrder tn'.nodes.keys y.order := by
      intro y hy
      obtain ⟨j, hj⟩ := h2 y hy
      have hpy := hb (j + 1) _ (by rw [hbase]; exact hj)
      rw [← f.orderAt_complete hd hc hcan] at hj
      rcases PlainFinder.orderAt_spec hgood.1 hc hcan hh' hj with k | k
      · omega
      · exact ⟨k.1, k.2.1, hpy⟩
    obtain ⟨b1, b2, b3, b4, b5, _⟩ := c58_slice_partial (hgood.2 i) hc a2 a1 ho h3
    rw [← h4] at b1
    exact compileExec_spec hE hsrt hC hF hd ⟨Or.inr ⟨_, b1, hpair⟩, hw⟩ ⟨b4, b5, a3⟩

/-- **C62**: the orders of the default finder and of `opt_einsum` are pairwise. -/
theorem c62_pairs (hC : CompletableFor TVal.val contract tn) (hh : NoHash tn) {f : PlainFinder} (hf : f.Good)
    (hk : ∀ part cutoff path cost, f ≠ .hyper part cutoff path cost) {i : Nat} {o : List OrderStep} (h : f.orderAt tn i = some o) : Pairwise2 o := by
  obtain ⟨tn', hd, hc, _, _, hcan, _⟩ := hC.complete
  rw [← f.orderAt_complete hd hc hcan] at h
  rcases PlainFinder.orderAt_spec hf hc hcan (hh.complete hC hd) h with k | k
  · rw [k.1]; intro s hs; simp at hs
  · exact k.2.2 hk

/-- **C62**: two finders, of whatever kinds, give the same array. -/
theorem c62_agree_partial {F1 F2 : Finder R} {p1 p2 : Plan} {srt2 : List Nm → List Nm} {memory2 : Nat}
    (hE : E.Sound ex) (hsrt : ∀ l, (srt l).Perm l) (hsrt2 : ∀ l, (srt2 l).Perm l) (hC : CompletableFor TVal.val contract tn) (hF : ClosedFixOK tn)
    (hh : NoHash tn) (hd : tn.completeDelta = (tn', .ok ())) (hG1 : F1.Good) (hG2 : F2.Good)
    (h1 : F1.find tn = some (some p1)) (h2 : F2.find tn = some (some p2))
    (hb1 : ∀ i o, F1.base.orderAt tn i = some o → Pairwise2 o) (hb2 : ∀ i o, F2.base.orderAt tn i = some o → Pairwise2 o)
    (hp1 : Pairwise2 p1.order) (hp2 : Pairwise2 p2.order)
    (hw1 : p1.width * 3 * 2 ^ 4 ≤ memory * 2 ^ 30) (hw2 : p2.width * 3 * 2 ^ 4 ≤ memory2 * 2 ^ 30)
    (hs1 : Sliceable tn' F1 p1) (hs2 : Sliceable tn' F2 p2) :
    ∃ r1 r2, tn.contractBy contract memory F1 srt E ex = .ok r1 ∧ tn.contractBy contract memory2 F2 srt2 E ex = .ok r2 ∧ SameArr r1 r2 := by
  obtain ⟨r1, a1, a2, a3⟩ := c62_contract_partial hE hsrt hC hF hh hd hG1 h1 hb1 hp1 hw1 hs1
  obtain ⟨r2, b1, b2, b3⟩ := c62_contract_partial hE hsrt2 hC hF hh hd hG2 h2 hb2 hp2 hw2 hs2
  have hsh : r1.shape = r2.shape := by
    rw [a2, Option.some.injEq] at b2
    exact List.map_injective_iff.2 (Option.some_injective _) b2
  exact ⟨r1, r2, a1, b1, hsh, fun idx hi => by rw [a3 idx hi, b3 idx (by rw [← hsh]; exact hi)]⟩

omit [Star R] in
/-- **C62**: if no scheme is found, `contract` raises. -/
theorem c62_none {F : Finder R} (h : F.find tn = some none) : tn.contractBy contract memory F srt E ex = .error .attribute := by
  unfold TN.contractBy
  rw [h]

end

/-! ## The processes of `MPSlicer` -/

omit [Star R] in
/-- **C62**: `MPSlicer` returns a cheapest one of more than `num_suc_candidates` candidates, each obtained by slicing one order. -/
theorem c62_cheapest {f : PlainFinder} {S : SliceUse R} {tn : TN (TVal R)} {fuel : Nat} {x : Sch × List Nm}
    (h : mpSlice f S tn fuel = some (some x)) : ∃ cands : List (Sch × List Nm), S.num < cands.length ∧ x ∈ cands ∧
      (∀ z ∈ cands, x.1.cost.s * 2 ^ x.1.cost.k ≤ z.1.cost.s * 2 ^ z.1.cost.k) ∧
      ∀ z ∈ cands, ∃ i y, f.schAt S tn (i + 1) = some y ∧ sliceScheme S.params (S.env i) tn [y] = some (some z) := by
  unfold mpSlice at h
  rw [Option.map_eq_some_iff] at h
  obtain ⟨l, h1, h2⟩ := h
  obtain ⟨h3, new, h4, h5⟩ := mpLoop_mem h1
  rw [List.nil_append] at h4
  subst h4
  refine ⟨l, h3, bestCand_mem h2, fun z hz => ?_, h5⟩
  have hb := bestCand_sch l
  rw [h2, Option.map_some] at hb
  obtain ⟨l1, l2, e1, e2, e3⟩ := c58_first.1 hb.symm
  have hz' : z.1 ∈ l.map (·.1) := List.mem_map_of_mem hz
  rw [e1, List.mem_append, List.mem_cons] at hz'
  rcases hz' with k | k | k
  · exact (e2 _ k).le
  · rw [k]
  · exact e3 _ k

omit [Star R] in
/-- **C62**: `MPSlicer` never returns `None`: it stops only with candidates. -/
theorem c62_mp_some {f : PlainFinder} {S : SliceUse R} {tn : TN (TVal R)} {fuel : Nat} : mpSlice f S tn fuel ≠ some none := by
  intro h
  unfold mpSlice at h
  rw [Option.map_eq_some_iff] at h
  obtain ⟨l, h1, h2⟩ := h
  obtain ⟨h3, _⟩ := mpLoop_mem h1
  cases l with
  | nil => simp at h3
  | cons a l => simp [bestCand] at h2

omit [Star R] in
/-- **C62** is violated: if no order can be sliced, `MPSlicer` reads further orders forever, where `Slicer` returns `None`. -/
theorem c62_endless_violated {f : PlainFinder} {S : SliceUse R} {tn : TN (TVal R)}
    (h : ∀ i y, f.schAt S tn (i + 1) = some y → sliceScheme S.params (S.env i) tn [y] = some none) (fuel : Nat) : mpSlice f S tn fuel = none := by
  unfold mpSlice
  rw [Option.map_eq_none_iff]
  by_contra hne
  obtain ⟨l, hl⟩ := Option.ne_none_iff_exists'.1 hne
  obtain ⟨h3, new, h4, h5⟩ := mpLoop_mem hl
  rw [List.nil_append] at h4
  subst h4
  cases l with
  | nil => simp at h3
  | cons a l =>
    obtain ⟨i, y, h6, h7⟩ := h5 a (by simp)
    rw [h i y h6] at h7
    simp at h7

/-- **C62**: the default finder and `opt_einsum` always give an order, and `contract` with it gives the Einstein sum. -/
theorem c62_plain {L : Type} [AddCommMonoid L] {contract : TVal R → Option (Arr R)} {tn : TN (TVal R)} {srt : List Nm → List Nm} {E : Engine L R}
    {ex : L → R} {memory : Nat} (hE : E.Sound ex) (hsrt : ∀ l, (srt l).Perm l) (hC : CompletableFor TVal.val contract tn) (hF : ClosedFixOK tn)
    (hh : NoHash tn) {f : PlainFinder} (hf : f.Good) (hk : ∀ part cutoff path cost, f ≠ .hyper part cutoff path cost)
    (hn : ∀ srt path, f = .names srt path → ∀ l, srt l ≠ none) {cost : List OrderStep → Cost}
    (hw : ∀ o, (cost o).t * 3 * 2 ^ 4 ≤ memory * 2 ^ 30) :
    ∃ r, tn.contractBy contract memory (.plain f cost) srt E ex = .ok r ∧ Represents TVal.val tn r := by
  obtain ⟨tn', hd, hc, _, _, hcan, _⟩ := hC.complete
  have hh' := hh.complete hC hd
  obtain ⟨o, ho⟩ : ∃ o, f.orderAt tn 0 = some o := by
    unfold PlainFinder.orderAt
    rw [hd]
    dsimp only
    cases f with
    | names srt path =>
      dsimp only
      obtain ⟨l, hl⟩ := Option.ne_none_iff_exists'.1 (hn srt path rfl tn'.nodes.keys)
      rw [hl, Option.bind_some]
      have hperm := hf.1 _ _ hl
      have hsame : findDefault (fun _ => l) path tn'.nodes.keys = findDefault (fun x => if x = tn'.nodes.keys then l else x) path tn'.nodes.keys := by
        unfold findDefault
        simp
      have key : ∀ l', ((fun x => if x = tn'.nodes.keys then l else x) l').Perm l' := by
        intro l'
        dsimp only
        split
        · rename_i h; rw [h]; exact hperm
        · exact List.Perm.refl _
      rw [hsame]
      by_cases h2 : 2 ≤ tn'.nodes.keys.length
      · obtain ⟨o', e1, _⟩ := c31_default_partial key hf.2 hc.nodes_nodup h2 hh'.1 hh'.2
        exact ⟨o', e1⟩
      · exact ⟨[], c31_default_small key path (by omega)⟩
    | einsum whole path =>
      dsimp only
      by_cases h2 : 2 ≤ tn'.nodes.keys.length
      · obtain ⟨a1, a2⟩ := hf.1 0 _ h2
        obtain ⟨o', e1, _⟩ := c32_opt_einsum_partial (hf.2 0) hc.nodes_nodup h2 a1 a2 hh'.1 fun j _ => hh'.2 j
        exact ⟨o', e1⟩
      · exact ⟨[], by unfold findOptEinsum; rw [if_neg (by omega)]⟩
    | hyper part cutoff path cost => exact absurd rfl (hk _ _ _ _)
  have hfind : (Finder.plain f cost : Finder R).find tn = some (some ⟨(cost o).t, o, []⟩) := by
    simp only [Finder.find, ho, Option.map_some]
  exact c62_contract_partial hE hsrt hC hF hh hd (F := .plain f cost) hf hfind (fun i o h => c62_pairs hC hh hf hk h) (c62_pairs hC hh hf hk ho) (hw o)
    (Or.inl ⟨f, cost, rfl⟩)

end

/-! ## Concrete cases -/

/-- The nodes as they come. -/
def asGiven : PlainFinder := .names some firstTwo

theorem asGiven_good : asGiven.Good := ⟨fun l l' h => by rw [Option.some.inj h], firstTwo_good⟩

/-- `opt_einsum` with the simplest path. -/
def simplest : PlainFinder := .einsum (fun _ ns => List.replicate (ns.length - 1) [0, 1]) fun _ => firstTwo

theorem simplest_good : simplest.Good := by
  refine ⟨fun _ ns h => ⟨?_, fun p hp => by rw [List.eq_of_mem_replicate hp]; rfl⟩, fun _ => firstTwo_good⟩
  have := validPath_replicate (ns.length - 1)
  rwa [show ns.length - 1 + 1 = ns.length by omega] at this

/-- A slicer that allows tensors of four entries and three sliced edges. -/
def narrow (k : Int) : SliceUse Nat where
  params := ⟨2, k, 4, defaultAccept⟩
  num := 1
  threads := 2
  cost := fun _ _ => ⟨0, 8, 0⟩
  env := fun _ => plainSlicing

/-- The finders of the example. -/
def finders : List (Finder Nat) :=
  [.plain asGiven fun _ => ⟨0, 8, 0⟩, .plain simplest fun _ => ⟨0, 8, 0⟩, .sliced asGiven (narrow 3), .sliced simplest (narrow 3),
   .mp asGiven (narrow 3) 2, .mp simplest (narrow 3) 2]

theorem finders_good : ∀ F ∈ finders, F.Good := by
  intro F hF
  simp only [finders, List.mem_cons, List.not_mem_nil, or_false] at hF
  rcases hF with rfl | rfl | rfl | rfl | rfl | rfl
  · exact asGiven_good
  · exact simplest_good
  · exact ⟨asGiven_good, fun _ => plainSlicing_good⟩
  · exact ⟨simplest_good, fun _ => plainSlicing_good⟩
  · exact ⟨asGiven_good, fun _ => plainSlicing_good⟩
  · exact ⟨simplest_good, fun _ => plainSlicing_good⟩

/-- `c62_contract_partial`, `c62_pairs`, `c62_cheapest`: six finders on the triangle, four of which slice edges. -/
example : ∃ (tn tn' : TN (TVal Nat)), TN.run {} khpTriangle = some tn ∧ tn.completeDelta = (tn', .ok ()) ∧ ∀ F ∈ finders, ∃ p r,
    F.find tn = some (some p) ∧ (p.slices = [] → ∃ f cost, F = .plain f cost) ∧
    tn.contractBy arrContract 16 F id plainEngine (fun _ => 1) = .ok r ∧ Represents TVal.val tn r := by
  obtain ⟨tn, h0, hC, hF, _, h1, h2⟩ := khpTriangle_ok
  obtain ⟨tn', hd, _⟩ := hC.complete
  refine ⟨tn, tn', h0, hd, fun F hFm => ?_⟩
  have hh : NoHash tn := by
    refine ⟨h1, fun j hj => ?_⟩
    cases h0
    have h3 : Nm.pair (.str "#") (.int j) ∈ [Nm.str "a", .str "b", .str "c", .str "d"] := hj
    simp [Nm.pair] at h3
  have h : tn'.legsPosB = true ∧ 2 ≤ tn'.nodes.keys.length ∧
      (finders.all fun F => ((F.find tn).map fun x => (x.map fun p => decide (p.width ≤ 8) && p.order.all (fun s => decide (s.1.length = 2)) &&
        p.slices.all (fun e => decide (e ∉ tn'.openE)) && (!p.slices.isEmpty || match F with | .plain _ _ => true | _ => false)).getD false) = some true) = true := by
    cases h0
    cases hd
    refine ⟨?_, ?_, ?_⟩ <;> decide +kernel
  obtain ⟨k1, k2, k3⟩ := h
  have k4 := List.all_eq_true.1 k3 F hFm
  rw [decide_eq_true_eq, Option.map_eq_some_iff] at k4
  obtain ⟨x, hx, k5⟩ := k4
  cases x with
  | none => simp at k5
  | some p =>
    simp only [Option.map_some, Option.getD_some, Bool.and_eq_true, List.all_eq_true, decide_eq_true_eq] at k5
    obtain ⟨⟨⟨k5, k6⟩, k7⟩, k8⟩ := k5
    have hb : ∀ i o, F.base.orderAt tn i = some o → Pairwise2 o := fun i o h =>
      c62_pairs hC hh (finders_good F hFm).base (by
        intro a b c d e
        simp only [finders, List.mem_cons, List.not_mem_nil, or_false] at hFm
        rcases hFm with rfl | rfl | rfl | rfl | rfl | rfl <;> simp [Finder.base, asGiven, simplest] at e) h
    obtain ⟨r, hr⟩ := c62_contract_partial (srt := id) (memory := 16) plainEngine_sound (fun l => List.Perm.refl l) hC hF hh hd (finders_good F hFm) hx hb
      (fun s hs => k6 s hs) (by omega) (Or.inr ⟨k2, legsPos_of_B k1, Or.inl k7⟩)
    refine ⟨p, r, hx, fun hs => ?_, hr⟩
    rw [hs] at k8
    simp only [List.isEmpty_nil, Bool.not_true, Bool.false_or] at k8
    cases F with
    | plain f cost => exact ⟨f, cost, rfl⟩
    | sliced => simp at k8
    | mp => simp at k8

/-- `c44_idempotent`: completing the triangle a second time. -/
example : ∃ (tn tn' : TN (TVal Nat)), TN.run {} khpTriangle = some tn ∧ tn.completeDelta = (tn', .ok ()) ∧ tn'.completeDelta = (tn', .ok ()) := by
  obtain ⟨tn, h0, hC, _⟩ := khpTriangle_ok
  obtain ⟨tn', hd, hc, _, _, hcan, _⟩ := hC.complete
  exact ⟨tn, tn', h0, hd, c44_idempotent hc hcan⟩

/-- `c62_none`, `c62_endless_violated`: with the default `max_num_slice` of `-1` the slicer gives up on the triangle, so `contract` raises,
and `MPSlicer` never returns. -/
example : ∃ (tn tn' : TN (TVal Nat)), TN.run {} khpTriangle = some tn ∧ tn.completeDelta = (tn', .ok ()) ∧
    tn.contractBy arrContract 16 (.sliced asGiven (narrow (-1))) id plainEngine (fun _ => 1) = .error .attribute ∧
    ∀ fuel, mpSlice asGiven (narrow (-1)) tn' fuel = none := by
  obtain ⟨tn, h0, hC, _⟩ := khpTriangle_ok
  obtain ⟨tn', hd, _⟩ := hC.complete
  refine ⟨tn, tn', h0, hd, c62_none ?_, c62_endless_violated ?_⟩
  · have h : ((Finder.sliced asGiven (narrow (-1))).find tn).map (·.isNone) = some true := by
      cases h0
      decide +kernel
    rw [Option.map_eq_some_iff] at h
    obtain ⟨x, h1, h2⟩ := h
    rw [h1, Option.isNone_iff_eq_none.1 h2]
  · intro i y hy
    have hy' : asGiven.schAt (narrow (-1)) tn' 0 = some y := hy
    have h : ((asGiven.schAt (narrow (-1)) tn' 0).bind fun y => (sliceScheme (narrow (-1)).params plainSlicing tn' [y]).map (·.isNone)) = some true := by
      cases h0
      cases hd
      decide +kernel
    rw [hy', Option.bind_some, Option.map_eq_some_iff] at h
    obtain ⟨x, h1, h2⟩ := h
    rw [Option.isNone_iff_eq_none] at h2
    rw [h2] at h1
    exact h1

end Verif
