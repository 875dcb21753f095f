import Verif.Props.Contract
/-!
# C04, C05, C07, C08, C09: sub-tasks, batches, new fixes, new data

The theorems are about tasks returned by `compile` for a network with distinct, attached and unfixed open edges
(what `complete_delta` produces).
-/

set_option linter.unusedSectionVars false

namespace Verif

variable {R : Type} [CommSemiring R] {L : Type} [AddCommMonoid L]

section
variable {τ : Type} [HasShape τ] {tn tn2 : TN τ} {split : List Nm} {val : τ → List Nat → R} {T : Task R} {h : Heap L R}
  {contract : τ → Option (Arr R)} {srt : List Nm → List Nm} {E : Engine L R} {ex : L → R} {memory width : Nat}
  {order : List OrderStep}

theorem compiled_armed (hR : Runnable tn split) (hS : SchemeOK tn order memory width)
    (hcon : ∀ n r t, tn.nodes.get? n = some r → r.ten = some t → Contracts contract val t)
    (hcomp : compile contract memory tn width order split = .ok (T, h)) :
    Armed val tn split T h ∧ T.data.keys = tn.nodes.keys ∧ T.pre = some false := by
  obtain ⟨T', h', h1, h2⟩ := compile_armed L hR hS hcon
  rw [hcomp] at h1
  cases h1
  exact h2

theorem getItem_of_prepare {T T1 : Task R} {h h1 : Heap L R} (hp : T.prepare srt E h = some (T1, h1))
    (ht : T1.pre = some true) (k : Nat) : T.getItem srt E k h = T1.getItem srt E k h1 := by
  have h2 : T1.prepare srt E h1 = some (T1, h1) := by unfold Task.prepare; rw [ht]
  unfold Task.getItem
  rw [hp, h2]

/-! ## C04 -/

/-- C04: the number of sub-tasks is the product of the sizes of the sliced edges; the numbers below it select every
combination of values of the sliced edges exactly once (`σ`); running sub-task `k` gives the part of the value with
the sliced edges at `σ k`, and the merge step decodes `k` to `σ k` on the sliced open edges.  Partial: no edge is
fixed to several values (see `c04_multi_fix_violated`). -/
theorem c04_enumeration_partial (hE : E.Sound ex) (hsrt : ∀ l, (srt l).Perm l) (hR : Runnable tn split) (hn : split.Nodup)
    (hS : SchemeOK tn order memory width)
    (hcon : ∀ n r t, tn.nodes.get? n = some r → r.ten = some t → Contracts contract val t)
    (hcomp : compile contract memory tn width order split = .ok (T, h)) :
    T.length = (split.map tn.dimOf).prod ∧ ∃ σ : Nat → Nm → Nat,
      Set.BijOn (fun k => split.map (σ k)) {k | k < T.length} {t | InRange (split.map tn.dimOf) t} ∧
      (∀ k, ∃ T1 hk h' r, T.getItem srt E k h = some (T1, hk) ∧ T1.sub.run E ex hk = some (h', r) ∧
        IsSlice val tn split (σ k) r) ∧
      ∀ k, ∀ e ∈ tn.openE, e ∈ split → (mergeAx T.subOut T.fixDict k []).get? e = some (σ k e) := by
  obtain ⟨ha, hk, hpre⟩ := compiled_armed hR hS hcon hcomp
  refine ⟨length_eq hR hn ha, tn.sliceOf split, sliceOf_bij hR hn ha, fun k => ?_, fun k e he hs => merge_decode hR ha k he hs⟩
  obtain ⟨h1, hp, hpr⟩ := ha.prepare hE hsrt (by rw [hk]) hpre
  obtain ⟨hk, h', r, g1, g2, _, g4⟩ := hpr.item hR hE srt k
  exact ⟨_, hk, h', r, by rw [getItem_of_prepare hp rfl, g1], g2, g4⟩

/-! ## C05 -/

/-- Client code: `execute(task, lst=b)` for the batches `b` one after another. -/
def runBatches (srt : List Nm → List Nm) (E : Engine L R) (ex : L → R) :
    List (List Nat) → Task R → Heap L R → Option (List (Arr R))
  | [], _, _ => some []
  | b :: bs, t, h =>
    match t.execute srt E ex (some b) h with
    | none => none
    | some (t', h', r) => (runBatches srt E ex bs t' h').map (r :: ·)

theorem Armed.runBatches (hR : Runnable tn split) (hE : E.Sound ex) (hsrt : ∀ l, (srt l).Perm l)
    (ha : Armed val tn split T h) (hbind : srt T.data.keys = srt tn.nodes.keys) {bs : List (List Nat)}
    (hb : ∀ b ∈ bs, b ≠ [] ∧ b.Nodup) :
    ∃ rs, runBatches srt E ex bs T h = some rs ∧ (∀ r ∈ rs, r.shape = tn.openE.map tn.dimOf) ∧
      ∀ idx, InRange (tn.openE.map tn.dimOf) idx → (rs.map fun r => r.get idx).sum =
        (bs.flatten.map fun k => tn.sliceValue val split (tn.sliceOf split k) idx).sum := by
  induction bs generalizing T h with
  | nil => exact ⟨[], rfl, by simp, fun _ _ => by simp⟩
  | cons b bs ih =>
    obtain ⟨hb1, hb2⟩ := hb b (by simp)
    obtain ⟨h', r, h1, h2, h3, h4⟩ := ha.execute hR hE hsrt hbind (lst := some b) hb2 hb1
    obtain ⟨rs, g1, g2, g3⟩ := ih h2 hbind fun b' hb' => hb b' (by simp [hb'])
    refine ⟨r :: rs, ?_, ?_, ?_⟩
    · rw [Verif.runBatches, h1]; dsimp only; rw [g1]; rfl
    · intro x hx
      rcases List.mem_cons.1 hx with rfl | hx
      · exact h3
      · exact g2 x hx
    · intro idx hi
      rw [List.map_cons, List.sum_cons, g3 idx hi, h4 idx (by rw [h3]; exact hi), List.flatten_cons, List.map_append,
        List.sum_append]
      rfl

/-- C05: executing the sub-tasks in batches, in whatever order, and adding the returned arrays gives the array of
the one call that executes them all (which is the value of the network).  Partial: no edge is fixed to several values
(see `c05_multi_fix_violated`). -/
theorem c05_batches_partial (hE : E.Sound ex) (hsrt : ∀ l, (srt l).Perm l) (hR : Runnable tn split)
    (hS : SchemeOK tn order memory width)
    (hcon : ∀ n r t, tn.nodes.get? n = some r → r.ten = some t → Contracts contract val t)
    (hcomp : compile contract memory tn width order split = .ok (T, h)) {bs : List (List Nat)} (hne : ∀ b ∈ bs, b ≠ [])
    (hbs : bs.flatten.Perm (List.range T.length)) :
    ∃ rs T2 h2 r, runBatches srt E ex bs T h = some rs ∧ T.execute srt E ex none h = some (T2, h2, r) ∧
      (∀ r' ∈ rs, r'.shape = r.shape) ∧
      (∀ idx, InRange r.shape idx → (rs.map fun r' => r'.get idx).sum = r.get idx) ∧ Represents val tn r := by
  obtain ⟨ha, hk, _⟩ := compiled_armed hR hS hcon hcomp
  have hnd : ∀ b ∈ bs, b.Nodup := (List.nodup_flatten.1 (hbs.nodup_iff.2 List.nodup_range)).1
  obtain ⟨rs, h1, h2, h3⟩ := ha.runBatches hR hE hsrt (by rw [hk]) fun b hb => ⟨hne b hb, hnd b hb⟩
  obtain ⟨h', r, h4, _, h5⟩ := ha.execute_all hR hE hsrt (by rw [hk])
  have hsh : r.shape = tn.openE.map tn.dimOf := by
    have := h5.1
    rw [shape_dims hR.ready, Option.some.injEq] at this
    exact (List.map_injective_iff.2 (Option.some_injective _) this).symm
  refine ⟨rs, _, _, r, h1, h4, fun r' hr' => by rw [h2 r' hr', hsh], fun idx hi => ?_, h5⟩
  rw [h5.2 idx hi]
  rw [hsh] at hi
  rw [h3 idx hi, (hbs.map _).sum_eq, sum_slices hR ha (by rw [hi.length, List.length_map])]

/-! ## C07 -/

/-- Client calls on a task. -/
inductive TaskOp (τ : Type) where
  | update (tn : TN τ)
  | exec

/-- Client code: `update_fix` and `execute` calls; the results of the executions. -/
def runTaskOps (srt : List Nm → List Nm) (E : Engine L R) (ex : L → R) :
    List (TaskOp τ) → Task R → Heap L R → Option (List (Arr R))
  | [], _, _ => some []
  | .update tn :: ops, t, h =>
    match t.updateFix tn h with
    | none => none
    | some (t', h') => runTaskOps srt E ex ops t' h'
  | .exec :: ops, t, h =>
    match t.execute srt E ex none h with
    | none => none
    | some (t', h', r) => (runTaskOps srt E ex ops t' h').map (r :: ·)

/-- The network current at each execution. -/
def currentNets : TN τ → List (TaskOp τ) → List (TN τ)
  | _, [] => []
  | _, .update tn' :: ops => currentNets tn' ops
  | tn, .exec :: ops => tn :: currentNets tn ops

theorem SameButFix.trans {tn3 : TN τ} (h1 : SameButFix tn tn2) (h2 : SameButFix tn2 tn3) : SameButFix tn tn3 := by
  refine ⟨h2.nodes.trans h1.nodes, h2.adj.trans h1.adj, h2.openE.trans h1.openE, ?_⟩
  obtain ⟨a1, a2⟩ := List.forall₂_iff_get.1 h1.edges
  obtain ⟨b1, b2⟩ := List.forall₂_iff_get.1 h2.edges
  refine List.forall₂_iff_get.2 ⟨a1.trans b1, fun i hi hj => ?_⟩
  obtain ⟨x1, x2, x3⟩ := a2 i hi (a1 ▸ hi)
  obtain ⟨y1, y2, y3⟩ := b2 i (a1 ▸ hi) hj
  exact ⟨x1.trans y1, x2.trans y2, x3.trans y3⟩

/-- C07: after any sequence of `update_fix` calls, every `execute` returns the value of the network given last, if all
these networks differ only in the single values their fixed edges are fixed to.  Partial: fixes to several values are
excluded (`c07_fewer_values_violated`), as are fixes on open edges, which `complete_delta` turns into tensors
(`c07_open_fix_violated`). -/
theorem c07_update_fix_partial (hE : E.Sound ex) (hsrt : ∀ l, (srt l).Perm l) (hR : Runnable tn split)
    (hS : SchemeOK tn order memory width)
    (hcon : ∀ n r t, tn.nodes.get? n = some r → r.ten = some t → Contracts contract val t)
    (hcomp : compile contract memory tn width order split = .ok (T, h)) {ops : List (TaskOp τ)}
    (hops : ∀ tn', TaskOp.update tn' ∈ ops → SameButFix tn tn' ∧ FixOK tn') :
    ∃ rs, runTaskOps srt E ex ops T h = some rs ∧ List.Forall₂ (Represents val) (currentNets tn ops) rs := by
  obtain ⟨ha, hk, _⟩ := compiled_armed hR hS hcon hcomp
  have hbind : srt T.data.keys = srt tn.nodes.keys := by rw [hk]
  clear hcomp hcon hS hk
  have key : ∀ (ops : List (TaskOp τ)) (cur : TN τ) (T : Task R) (h : Heap L R), SameButFix tn cur → Runnable cur split →
      Armed val cur split T h → srt T.data.keys = srt cur.nodes.keys →
      (∀ tn', TaskOp.update tn' ∈ ops → SameButFix tn tn' ∧ FixOK tn') →
      ∃ rs, runTaskOps srt E ex ops T h = some rs ∧ List.Forall₂ (Represents val) (currentNets cur ops) rs := by
    intro ops
    induction ops with
    | nil => intro cur T h _ _ _ _ _; exact ⟨[], rfl, List.Forall₂.nil⟩
    | cons op ops ih =>
      intro cur T h hs hRc ha hb ho
      cases op with
      | update tn' =>
        obtain ⟨h1, h2⟩ := ho tn' (by simp)
        have h3 : SameButFix cur tn' := hs.symm.trans h1
        obtain ⟨T', h', g1, g2, g3, _⟩ := ha.updateFix h3 hRc h2 (tnU := tn') fun _ _ => rfl
        obtain ⟨rs, k1, k2⟩ := ih tn' T' h' h1 (h1.runnable hR h2) g2 (by rw [g3, h3.nodes]; exact hb)
          fun t ht => ho t (by simp [ht])
        refine ⟨rs, ?_, k2⟩
        rw [runTaskOps, g1]
        exact k1
      | exec =>
        obtain ⟨h', r, g1, g2, g3⟩ := ha.execute_all hRc hE hsrt hb
        obtain ⟨rs, k1, k2⟩ := ih cur _ h' hs hRc g2 hb fun t ht => ho t (by simp [ht])
        refine ⟨r :: rs, ?_, List.Forall₂.cons g3 k2⟩
        rw [runTaskOps, g1]
        dsimp only
        rw [k1]
        rfl
  refine key ops tn T h ⟨rfl, rfl, rfl, ?_⟩ hR ha hbind hops
  exact List.forall₂_same.2 fun p _ => ⟨rfl, rfl, rfl⟩

/-! ## C08 -/

/-- The two networks have the same structure, but may hold different tensors. -/
structure SameButTensors {τ' : Type} (tn : TN τ) (tn2 : TN τ') : Prop where
  edges : tn2.edges = tn.edges
  openE : tn2.openE = tn.openE
  nodes : tn2.nodes.map (fun p => (p.1, p.2.legs)) = tn.nodes.map fun p => (p.1, p.2.legs)

theorem Armed.setTensors {τ' : Type} [HasShape τ'] {tn2 : TN τ'} {val2 : τ' → List Nat → R} (hs : SameButTensors tn tn2)
    (hR : Runnable tn split) (hR2 : Runnable tn2 split) (ha : Armed val tn split T h) {data : Dict Nm (Arr R)}
    (hkeys : data.keys.Perm tn.nodes.keys) {contract2 : τ' → Option (Arr R)}
    (hdata : ∀ n r t, tn2.nodes.get? n = some r → r.ten = some t → Contracts contract2 val2 t ∧ data.get? n = contract2 t) :
    Armed val2 tn2 split (T.setData data) h := by
  have hkk : tn2.nodes.keys = tn.nodes.keys := by
    have := congrArg (List.map Prod.fst) hs.nodes
    rw [List.map_map, List.map_map] at this
    exact this
  have hdim : tn2.dimOf = tn.dimOf := by funext e; unfold TN.dimOf; rw [hs.edges]
  have hpl : tn2.plan split = tn.plan split := by rw [plan_eq hR, plan_eq hR2, hs.edges]
  have hF : tn2.fixedE = tn.fixedE := by unfold TN.fixedE; rw [hs.edges]
  have hS : tn2.slicedE split = tn.slicedE split := by
    have := congrArg (List.map Prod.fst) hpl
    rw [plan_edges, plan_edges, hF] at this
    exact List.append_cancel_left this
  have hnl : tn2.nodeLegs = tn.nodeLegs := hs.nodes
  obtain ⟨arr, hrun, hset, hlen, harr⟩ := ha
  have hd : ∀ n r, tn2.nodes.get? n = some r → ∃ t a, r.ten = some t ∧ data.get? n = some a ∧
      a.shape = r.legs.map tn2.dimOf ∧ ∀ idx, InRange (r.legs.map tn2.dimOf) idx → a.get idx = val2 t idx := by
    intro n r hn
    obtain ⟨t, ht, hsh⟩ := (hR2.ready.nodes n r hn).legs_dims
    obtain ⟨h1, h2⟩ := hdata n r t hn ht
    obtain ⟨a, h3, h4, h5⟩ := h1 _ hsh
    exact ⟨t, a, ht, by rw [h2, h3], h4, h5⟩
  refine ⟨fun n => (data.get? n).getD (zeroArr []), ?_, ?_, hlen, ?_⟩
  · rw [hdim, hnl, hs.openE, hF, hS, hpl]
    refine ⟨⟨hrun.task.inputs, hrun.task.openE, hrun.task.shape, hrun.task.subOut, hrun.task.sem⟩, hrun.names,
      hrun.opn_nodup, hrun.opn_F, hrun.edges, hrun.nodup, hrun.dict, hrun.valF, hrun.valS, ?_, ?_, hrun.proper⟩
    · rw [nodeLegs_keys]; exact hkeys
    · intro p hp
      rw [← hnl] at hp
      obtain ⟨q, hq, rfl⟩ := List.mem_map.1 hp
      obtain ⟨t, a, _, h2, h3, _⟩ := hd _ _ (Dict.get?_of_mem hR2.cons.nodes_nodup hq)
      show data.get? q.1 = _ ∧ _
      dsimp only
      rw [h2, ← hdim]
      exact ⟨rfl, h3⟩
  · rw [hF, hpl]; exact hset
  · intro n r hn
    obtain ⟨t, a, h1, h2, _, h4⟩ := hd n r hn
    refine ⟨t, h1, fun idx hi => ?_⟩
    dsimp only
    rw [h2]
    exact h4 idx hi

/-- C08: after `set_data` with a dictionary that holds, under every node name and in any insertion order, the array of
the node of that name in another network `tn2` of the same structure, `execute` returns the value of `tn2`: every node
has received the array stored under its own name.  Partial: the sort that `_load_data` applies to the names must not
depend on the insertion order (`hdet`; it does when two names have the same `str`, see `c08_same_str_violated`). -/
theorem c08_set_data_partial {τ' : Type} [HasShape τ'] {tn2 : TN τ'} {val2 : τ' → List Nat → R}
    {contract2 : τ' → Option (Arr R)} (hE : E.Sound ex) (hsrt : ∀ l, (srt l).Perm l)
    (hdet : ∀ l, l.Perm tn.nodes.keys → srt l = srt tn.nodes.keys)
    (hR : Runnable tn split) (hS : SchemeOK tn order memory width)
    (hcon : ∀ n r t, tn.nodes.get? n = some r → r.ten = some t → Contracts contract val t)
    (hcomp : compile contract memory tn width order split = .ok (T, h)) (hs : SameButTensors tn tn2)
    (hR2 : Runnable tn2 split) {data : Dict Nm (Arr R)} (hkeys : data.keys.Perm tn.nodes.keys)
    (hdata : ∀ n r t, tn2.nodes.get? n = some r → r.ten = some t → Contracts contract2 val2 t ∧ data.get? n = contract2 t) :
    ∃ T2 h2 r, (T.setData data).execute srt E ex none h = some (T2, h2, r) ∧ Represents val2 tn2 r := by
  obtain ⟨ha, hk, _⟩ := compiled_armed hR hS hcon hcomp
  have ha2 := ha.setTensors (val2 := val2) hs hR hR2 hkeys hdata
  have hkk : tn2.nodes.keys = tn.nodes.keys := by
    have := congrArg (List.map Prod.fst) hs.nodes
    rw [List.map_map, List.map_map] at this
    exact this
  obtain ⟨h', r, h1, _, h2⟩ := ha2.execute_all hR2 hE hsrt (by
    rw [hkk]
    exact hdet _ hkeys)
  exact ⟨_, h', r, h1, h2⟩

/-! ## C09 -/

/-- Client calls on the sub-tasks of a task: `objs.append(task[k])`, `execute(objs[i])`. -/
inductive SubOp where
  | get (k : Nat)
  | run (i : Nat)

/-- Client code: indexing and executing in any interleaving; `objs` are the collected sub-tasks. -/
def runSubOps (srt : List Nm → List Nm) (E : Engine L R) (ex : L → R) :
    List SubOp → Task R → Heap L R → List (Task R) → Option (List (Arr R))
  | [], _, _, _ => some []
  | .get k :: ops, t, h, objs =>
    match t.getItem srt E k h with
    | none => none
    | some (t', h') => runSubOps srt E ex ops t' h' (objs ++ [t'.sub])
  | .run i :: ops, t, h, objs =>
    match objs[i]? with
    | none => none
    | some s =>
      match s.run E ex h with
      | none => none
      | some (h', r) => (runSubOps srt E ex ops t h' objs).map (r :: ·)

/-- The numbers of the sub-tasks the client executes (`none`: no such object); `ks` are the numbers collected. -/
def wanted : List Nat → List SubOp → List (Option Nat)
  | _, [] => []
  | ks, .get k :: ops => wanted (ks ++ [k]) ops
  | ks, .run i :: ops => ks[i]? :: wanted ks ops

/-- The number last used for indexing, at each execution. -/
def lastIndexed : Option Nat → List SubOp → List (Option Nat)
  | _, [] => []
  | _, .get k :: ops => lastIndexed (some k) ops
  | k, .run _ :: ops => k :: lastIndexed k ops

theorem setCells_congr {d : Dict (Nm × List Nat) Nat} {k : Nat} {h h' : Heap L R}
    (hh : ∀ c, c ∉ d.map Prod.snd → h.fix c = h'.fix c) : (setCells d k h).fix = (setCells d k h').fix := by
  induction d generalizing k h h' with
  | nil => funext c; exact hh c (by simp)
  | cons p d ih =>
    obtain ⟨⟨e, vals⟩, c⟩ := p
    rw [setCells, setCells]
    refine ih fun x hx => ?_
    unfold Heap.putFix
    dsimp only
    by_cases hc : x = c
    · rw [if_pos hc, if_pos hc]
    · rw [if_neg hc, if_neg hc]
      exact hh x (by simp [hc, hx])

theorem setCells_idem {d : Dict (Nm × List Nat) Nat} {k : Nat} {h h' : Heap L R} (hf : h'.fix = (setCells d k h).fix) :
    setCells d k h' = h' := by
  have h1 : (setCells d k h').fix = h'.fix := by
    rw [hf]
    refine setCells_congr fun c hc => ?_
    rw [hf, setCells_of_notMem hc]
  have h2 := setCells_data d k h'
  cases h3 : setCells d k h' with
  | mk a b => cases h'; rw [h3] at h1 h2; dsimp only at h1 h2; rw [h1, h2]

theorem runCmd_fix {h h' : Heap L R} {c : Cmd} (hc : runCmd E h c = some h') : h'.fix = h.fix := by
  cases c with
  | f lhs rhs idx cells =>
    rw [runCmd] at hc
    split at hc
    · cases hc
    · split at hc
      · cases hc
      · cases hc; rfl
  | c lhs rhs subs out path =>
    rw [runCmd] at hc
    split at hc
    · cases hc
    · dsimp only at hc
      split at hc
      · cases hc
      · split at hc
        · cases hc; rfl
        · cases hc

theorem runCmds_fix {cs : List Cmd} {h h' : Heap L R} (hc : runCmds E cs h = some h') : h'.fix = h.fix := by
  induction cs generalizing h with
  | nil => cases hc; rfl
  | cons c cs ih =>
    rw [runCmds] at hc
    cases h1 : runCmd E h c with
    | none => rw [h1] at hc; cases hc
    | some g => rw [h1] at hc; rw [ih hc, runCmd_fix h1]

theorem run_fix {h h' : Heap L R} {r : Arr R} (hr : T.run E ex h = some (h', r)) : h'.fix = h.fix := by
  unfold Task.run at hr
  split at hr
  · cases hr
  · next g hg =>
    split at hr
    · cases hr
    · cases hr; exact runCmds_fix hg

theorem getItem_primed {k : Nat} (hpre : T.pre = some true) {hk : Heap L R} (hg : T.getItem srt E k h = some (T, hk)) :
    hk = setCells T.fixDict k h := by
  have h2 : T.prepare srt E h = some (T, h) := by unfold Task.prepare; rw [hpre]
  unfold Task.getItem at hg
  rw [h2] at hg
  dsimp only at hg
  split at hg
  · cases hg; rfl
  · cases hg

/-- C09, what the code does for every interleaving of indexing and executing: an executed sub-task computes the part of
the value for the number that was used last for indexing, whatever number it was created with. -/
theorem c09_last_index (hE : E.Sound ex) (hsrt : ∀ l, (srt l).Perm l) (hR : Runnable tn split)
    (hS : SchemeOK tn order memory width)
    (hcon : ∀ n r t, tn.nodes.get? n = some r → r.ten = some t → Contracts contract val t)
    (hcomp : compile contract memory tn width order split = .ok (T, h)) {ops : List SubOp}
    (hwf : ∀ x ∈ wanted [] ops, x ≠ none) :
    ∃ rs, runSubOps srt E ex ops T h [] = some rs ∧
      List.Forall₂ (fun k r => ∃ j, k = some j ∧ IsSlice val tn split (tn.sliceOf split j) r) (lastIndexed none ops) rs := by
  obtain ⟨ha, hk, hpre⟩ := compiled_armed hR hS hcon hcomp
  obtain ⟨h1, hp, hpr⟩ := ha.prepare hE hsrt (by rw [hk]) hpre
  -- after the first indexing
  have key : ∀ (ops : List SubOp) (T : Task R) (h : Heap L R) (ks : List Nat) (objs : List (Task R)) (k : Nat)
      (h0 : Heap L R), Primed val tn split E T h0 → T.pre = some true → h.data = h0.data →
      h.fix = (setCells T.fixDict k h0).fix → objs = ks.map (fun _ => T.sub) → (∀ x ∈ wanted ks ops, x ≠ none) →
      ∃ rs, runSubOps srt E ex ops T h objs = some rs ∧ List.Forall₂
        (fun k r => ∃ j, k = some j ∧ IsSlice val tn split (tn.sliceOf split j) r) (lastIndexed (some k) ops) rs := by
    intro ops
    induction ops with
    | nil => intro T h ks objs k h0 _ _ _ _ _ _; exact ⟨[], rfl, List.Forall₂.nil⟩
    | cons op ops ih =>
      intro T h ks objs k h0 hP hpre hdat hfix hobj hwf
      have hhk : h = setCells T.fixDict k h0 := by
        have h2 := setCells_data T.fixDict k h0
        cases h3 : setCells T.fixDict k h0 with
        | mk a b => cases h; rw [h3] at hfix h2; dsimp only at hfix h2 hdat; rw [hfix, hdat, h2]
      cases op with
      | get j =>
        obtain ⟨hj, _, _, g1, _, _, _⟩ := hP.item hR hE (ex := ex) srt j
        have g2 := getItem_primed hpre g1
        -- the same call on `h`
        have g3 : T.getItem srt E j h = some (T, setCells T.fixDict j h) := by
          have a1 : T.prepare srt E h = some (T, h) := by unfold Task.prepare; rw [hpre]
          have a2 : T.prepare srt E h0 = some (T, h0) := by unfold Task.prepare; rw [hpre]
          unfold Task.getItem at g1 ⊢
          rw [a2] at g1
          rw [a1]
          dsimp only at g1 ⊢
          split at g1
          · next hc => rw [if_pos hc]
          · cases g1
        have hsame : (setCells T.fixDict j h).fix = (setCells T.fixDict j h0).fix := by
          refine setCells_congr fun c hc => ?_
          rw [hfix, setCells_of_notMem hc]
        obtain ⟨rs, k1, k2⟩ := ih T (setCells T.fixDict j h) (ks ++ [j]) (objs ++ [T.sub]) j h0 hP hpre
          (by rw [setCells_data, hdat]) hsame (by rw [hobj]; simp) (by rw [wanted] at hwf; exact hwf)
        refine ⟨rs, ?_, by rw [lastIndexed]; exact k2⟩
        rw [runSubOps, g3]
        exact k1
      | run i =>
        rw [wanted] at hwf
        obtain ⟨hj, h', r, g1, g2, g3, g4⟩ := hP.item hR hE (ex := ex) srt k
        have hjh : hj = h := by rw [getItem_primed hpre g1, hhk]
        rw [hjh] at g2
        have hobji : objs[i]? = some T.sub := by
          have : ks[i]? ≠ none := hwf _ (by simp)
          rw [hobj, List.getElem?_map]
          cases h5 : ks[i]? with
          | none => exact absurd h5 this
          | some x => rfl
        have hf' : h'.fix = h.fix := run_fix g2
        obtain ⟨rs, k1, k2⟩ := ih T h' ks objs k h' g3 hpre rfl (by
            rw [setCells_idem (k := k) (h := h0) (d := T.fixDict) (by rw [hf', hfix])]) hobj
          fun x hx => hwf x (by simp [hx])
        refine ⟨r :: rs, ?_, by rw [lastIndexed]; exact List.Forall₂.cons ⟨k, rfl, g4⟩ k2⟩
        rw [runSubOps, hobji]
        dsimp only
        rw [g2]
        dsimp only
        rw [k1]
        rfl
  cases ops with
  | nil => exact ⟨[], rfl, List.Forall₂.nil⟩
  | cons op ops =>
    cases op with
    | run i => exact absurd rfl (hwf none (by simp [wanted]))
    | get k =>
      obtain ⟨hk, _, _, g1, _⟩ := hpr.item hR hE (ex := ex) srt k
      have g2 := getItem_primed rfl g1
      obtain ⟨rs, k1, k2⟩ := key ops _ hk [k] [_] k h1 hpr rfl (by rw [g2, setCells_data]) (by rw [g2]) rfl
        (by rw [wanted] at hwf; exact hwf)
      refine ⟨rs, ?_, by rw [lastIndexed]; exact k2⟩
      rw [runSubOps, getItem_of_prepare hp rfl, g1]
      exact k1

/-- C09: if every collected sub-task is executed before the task is indexed with another number, the results are the
parts of the value for the numbers asked for.  Partial: this order of calls is needed
(`c09_collect_first_violated`). -/
theorem c09_in_time_partial (hE : E.Sound ex) (hsrt : ∀ l, (srt l).Perm l) (hR : Runnable tn split) (hn : split.Nodup)
    (hS : SchemeOK tn order memory width)
    (hcon : ∀ n r t, tn.nodes.get? n = some r → r.ten = some t → Contracts contract val t)
    (hcomp : compile contract memory tn width order split = .ok (T, h)) :
    ∃ σ : Nat → Nm → Nat,
      Set.BijOn (fun k => split.map (σ k)) {k | k < T.length} {t | InRange (split.map tn.dimOf) t} ∧
      ∀ ops : List SubOp, (∀ x ∈ wanted [] ops, x ≠ none) → wanted [] ops = lastIndexed none ops →
        ∃ rs, runSubOps srt E ex ops T h [] = some rs ∧
          List.Forall₂ (fun k r => ∃ j, k = some j ∧ IsSlice val tn split (σ j) r) (wanted [] ops) rs := by
  refine ⟨tn.sliceOf split, sliceOf_bij hR hn (compiled_armed hR hS hcon hcomp).1, fun ops hwf hl => ?_⟩
  rw [hl]
  exact c09_last_index hE hsrt hR hS hcon hcomp hwf

end

/-! ## Concrete cases -/

/-- A matrix on "a", "b" and a tensor on "b", "c"; "a" is open and "c" is fixed to `v`. -/
def taskOps (v : Nat) : List (Op (TVal Nat)) :=
  [.addNode (some (.int 0)) (.int 0) (some [.str "a", .str "b"]) (arrVal [2, 3] fun i => i.sum + 1) false,
   .addNode (some (.int 1)) (.int 1) (some [.str "b", .str "c"]) (arrVal [3, 2] fun i => i.sum) false,
   .openEdge (.str "a") none, .fixEdge (.str "c") [v] false]

/-- A checkable form of `FixOK`. -/
def TN.fixOKB {τ : Type} (tn : TN τ) : Bool :=
  tn.edges.all fun p => match p.2.fix, p.2.dim with
    | none, _ => true
    | some [v], some d => decide (v < d)
    | _, _ => false

theorem fixOK_of_B {τ : Type} {tn : TN τ} (h : tn.fixOKB = true) : FixOK tn := by
  intro e r l he hl
  have := List.all_eq_true.1 h _ (Dict.mem_of_get? he)
  dsimp only at this
  rw [hl] at this
  match l, hd : r.dim, this with
  | [v], some d, h => exact ⟨v, d, rfl, rfl, by simpa using h⟩
  | [], _, h => simp at h
  | _ :: _ :: _, _, h => simp at h

/-- The network of `taskOps 0`, with the closed edge "b" and the open edge "a" sliced and the default order. -/
theorem taskOps_ok : ∃ tn : TN (TVal Nat), TN.run {} (taskOps 0) = some tn ∧ Runnable tn [.str "a", .str "b"] ∧
    SchemeOK tn [([.int 0, .int 1], .str "#")] 16 7 ∧
    (∀ n r t, tn.nodes.get? n = some r → r.ten = some t → Contracts arrContract TVal.val t) := by
  have hc : TN.Consistent _ := c11_consistent_partial (ops := taskOps 0) ⟨trivial, trivial, trivial, trivial, trivial⟩ rfl
  refine ⟨_, rfl, ⟨hc, ⟨by decide, ?_, ?_, by decide⟩, TN.ready_of_readyB rfl, fixOK_of_B rfl, ?_, ?_, ?_⟩,
    ⟨Or.inr ⟨.str "#", ?_, ?_⟩, by omega⟩, tens_of_arraysB rfl⟩
  · intro e he
    have he : e ∈ [Nm.str "a"] := he
    rw [List.mem_singleton] at he
    subst he
    exact ⟨.int 0, _, rfl, by decide⟩
  · intro e he r hr
    have he : e ∈ [Nm.str "a"] := he
    rw [List.mem_singleton] at he
    subst he
    cases hr
    rfl
  · intro e he
    simp only [List.mem_cons, List.not_mem_nil, or_false] at he
    rcases he with rfl | rfl
    · exact ⟨2, rfl, by omega⟩
    · exact ⟨3, rfl, by omega⟩
  · intro e he
    simp only [List.mem_cons, List.not_mem_nil, or_false] at he
    rcases he with rfl | rfl
    · exact ⟨.int 0, _, rfl, by decide⟩
    · exact ⟨.int 0, _, rfl, by decide⟩
  · exact Or.inr ⟨.str "b", by simp, by decide⟩
  · exact .step (rest := []) (List.Perm.refl _) (by simp) (by simp) (.done _)
  · intro s hs
    rw [List.mem_singleton] at hs
    subst hs
    rfl

/-- Compiling with the plain engine. -/
def plainCompile (tn : TN (TVal Nat)) (p : Plan) : Except Err (Task Nat × Heap Nat Nat) :=
  compile arrContract 16 tn p.width p.order p.slices

/-! ## What the code gets wrong -/

/-- C04 fails when a closed edge is fixed to two values: without any sliced edge there are two sub-tasks. -/
theorem c04_multi_fix_violated : ∃ (tn : TN (TVal Nat)) (T : Task Nat) (h : Heap Nat Nat),
    TN.run {} (vecOps ++ [.fixEdge (.str "a") [0, 2] false]) = some tn ∧ plainCompile tn ⟨0, [], []⟩ = .ok (T, h) ∧
    T.length = 2 :=
  ⟨_, _, _, rfl, rfl, rfl⟩

/-- C05 fails when a closed edge is fixed to two values: the sum of the batches depends on their order (2 or 4). -/
theorem c05_multi_fix_violated : ∃ (tn : TN (TVal Nat)) (T : Task Nat) (h : Heap Nat Nat) (r₁ r₂ r₃ r₄ : Arr Nat),
    TN.run {} (vecOps ++ [.fixEdge (.str "a") [0, 2] false]) = some tn ∧ plainCompile tn ⟨0, [], []⟩ = .ok (T, h) ∧
    runBatches id plainEngine (fun _ => 1) [[0], [1]] T h = some [r₁, r₂] ∧
    runBatches id plainEngine (fun _ => 1) [[1], [0]] T h = some [r₃, r₄] ∧
    r₁.get [] + r₂.get [] = 2 ∧ r₃.get [] + r₄.get [] = 4 :=
  ⟨_, _, _, _, _, _, _, rfl, rfl, rfl, rfl, by decide, by decide⟩

/-- C07 fails when the number of fixed values changes: the task compiled for {0, 2} and updated to {1} has length 2
still and returns twice the entry 2. -/
theorem c07_fewer_values_violated : ∃ (tn tn' : TN (TVal Nat)) (T : Task Nat) (h : Heap Nat Nat) (r : Arr Nat),
    TN.run {} (vecOps ++ [.fixEdge (.str "a") [0, 2] false]) = some tn ∧
    TN.run {} (vecOps ++ [.fixEdge (.str "a") [1] false]) = some tn' ∧ SameButFix tn tn' ∧
    plainCompile tn ⟨0, [], []⟩ = .ok (T, h) ∧
    runTaskOps id plainEngine (fun _ => 1) [.update tn', .exec] T h = some [r] ∧ tn'.value TVal.val [] = 2 ∧
    r.get [] = 4 :=
  ⟨_, _, _, _, _, rfl, rfl, ⟨rfl, rfl, rfl, List.Forall₂.cons ⟨rfl, rfl, rfl⟩ List.Forall₂.nil⟩, rfl, rfl, by decide,
    by decide⟩

/-- C07 fails for a fixed open edge: `complete_delta` turns the fix into a tensor, which `update_fix` does not touch. -/
theorem c07_open_fix_violated : ∃ (tn tn' tnD : TN (TVal Nat)) (T : Task Nat) (h : Heap Nat Nat) (r : Arr Nat),
    TN.run {} (vecOps ++ [.openEdge (.str "a") none, .fixEdge (.str "a") [0] false]) = some tn ∧
    TN.run {} (vecOps ++ [.openEdge (.str "a") none, .fixEdge (.str "a") [1] false]) = some tn' ∧ SameButFix tn tn' ∧
    tn.completeDelta = (tnD, .ok ()) ∧ plainCompile tnD ⟨0, [], []⟩ = .ok (T, h) ∧
    runTaskOps id plainEngine (fun _ => 1) [.update tn', .exec] T h = some [r] ∧ tn'.value TVal.val [1] = 2 ∧
    r.get [1] = 0 :=
  ⟨_, _, _, _, _, _, rfl, rfl, ⟨rfl, rfl, rfl, List.Forall₂.cons ⟨rfl, rfl, rfl⟩ List.Forall₂.nil⟩, rfl, rfl, rfl,
    by decide, by decide⟩

/-- C09 fails when sub-tasks are collected first: both objects compute the part of the number indexed last. -/
theorem c09_collect_first_violated : ∃ (tn : TN (TVal Nat)) (T : Task Nat) (h : Heap Nat Nat) (r₀ r₁ s₀ s₁ : Arr Nat),
    TN.run {} vecOps = some tn ∧ plainCompile tn ⟨0, [], [.str "a"]⟩ = .ok (T, h) ∧
    runSubOps id plainEngine (fun _ => 1) [.get 0, .run 0, .get 1, .run 1] T h [] = some [r₀, r₁] ∧
    runSubOps id plainEngine (fun _ => 1) [.get 0, .get 1, .run 0, .run 1] T h [] = some [s₀, s₁] ∧
    r₀.get [] = 1 ∧ r₁.get [] = 2 ∧ s₀.get [] = 2 ∧ s₁.get [] = 2 :=
  ⟨_, _, _, _, _, _, _, rfl, rfl, rfl, rfl, by decide, by decide, by decide, by decide⟩

/-- Python's `str` of a name (integers and strings; tuples are not needed here). -/
def nmStr : Nm → List Char
  | .int (.ofNat n) => Nat.toDigits 10 n
  | .int (.negSucc n) => '-' :: Nat.toDigits 10 (n + 1)
  | .str s => s.toList
  | _ => []

/-- Lexicographic comparison. -/
def lexLe : List Char → List Char → Bool
  | [], _ => true
  | _ :: _, [] => false
  | a :: s, b :: t => if a.val < b.val then true else if b.val < a.val then false else lexLe s t

/-- Insertion into a sorted list, before the first name that is not smaller. -/
def insertStr (x : Nm) : List Nm → List Nm
  | [] => [x]
  | y :: l => if lexLe (nmStr x) (nmStr y) then x :: y :: l else y :: insertStr x l

/-- contraction.py:222, 226: `sorted(l, key=str)`, a stable sort. -/
def sortStr : List Nm → List Nm
  | [] => []
  | x :: l => insertStr x (sortStr l)

/-- Two vectors named `1` and `"1"`. -/
def strOps : List (Op (TVal Nat)) :=
  [.addNode (some (.int 1)) (.int 1) (some [.str "a"]) (arrVal [2] fun i => i.sum) false,
   .addNode (some (.str "1")) (.int 2) (some [.str "b"]) (arrVal [2] fun i => i.sum) false,
   .openEdge (.str "a") none, .openEdge (.str "b") none]

/-- C08 fails for node names with the same `str`: node `1` receives the array stored under `"1"` and vice versa, when
they were inserted in the opposite order. -/
theorem c08_same_str_violated : ∃ (tn : TN (TVal Nat)) (T T2 : Task Nat) (h h2 : Heap Nat Nat) (r : Arr Nat),
    TN.run {} strOps = some tn ∧ plainCompile tn ⟨0, [], []⟩ = .ok (T, h) ∧
    (T.setData [(.str "1", ⟨[2], fun _ => 1⟩), (.int 1, ⟨[2], fun i => i.sum⟩)]).execute sortStr plainEngine
      (fun _ => 1) none h = some (T2, h2, r) ∧ r.get [1, 0] = 0 ∧ r.get [0, 1] = 1 :=
  ⟨_, _, _, _, _, _, rfl, rfl, rfl, by decide, by decide⟩

/-- `sortStr` is a sort: it permutes its input. -/
theorem sortStr_perm (l : List Nm) : (sortStr l).Perm l := by
  have hins : ∀ x l, (insertStr x l).Perm (x :: l) := by
    intro x l
    induction l with
    | nil => exact List.Perm.refl _
    | cons y l ih =>
      unfold insertStr
      split
      · exact List.Perm.refl _
      · exact (ih.cons y).trans (List.Perm.swap _ _ _)
  induction l with
  | nil => exact List.Perm.refl _
  | cons x l ih => exact (hins x _).trans (ih.cons x)

/-- The hypotheses of `c04_enumeration_partial`, `c05_batches_partial`, `c09_last_index` are met: `taskOps_ok` and
`compile_armed`; six sub-tasks, in three batches. -/
example : ∃ (tn : TN (TVal Nat)) (T : Task Nat) (h : Heap Nat Nat), Runnable tn [.str "a", .str "b"] ∧
    plainCompile tn ⟨7, [([.int 0, .int 1], .str "#")], [.str "a", .str "b"]⟩ = .ok (T, h) ∧
    [[4, 1], [5], [0, 2, 3]].flatten.Perm (List.range T.length) ∧
    (let ops : List SubOp := [.get 3, .run 0, .run 0, .get 5, .run 1]
     (∀ x ∈ wanted [] ops, x ≠ none) ∧ wanted [] ops = lastIndexed none ops) := by
  obtain ⟨tn, h0, h1, h2, h3⟩ := taskOps_ok
  obtain ⟨T, h, h4, h5, _⟩ := compile_armed Nat h1 h2 h3
  refine ⟨tn, T, h, h1, h4, ?_, by decide, by decide⟩
  have h6 := length_eq h1 (by decide) h5
  have h7 : (List.map tn.dimOf [.str "a", .str "b"]).prod = 6 := by
    cases h0
    decide
  rw [h6, h7]
  decide

/-- The hypotheses of `c07_update_fix_partial` are met by `taskOps 0` and `taskOps 1`. -/
example : ∃ tn tn' : TN (TVal Nat), TN.run {} (taskOps 0) = some tn ∧ TN.run {} (taskOps 1) = some tn' ∧
    SameButFix tn tn' ∧ FixOK tn' ∧ tn.value TVal.val [0] ≠ tn'.value TVal.val [0] :=
  ⟨_, _, rfl, rfl, ⟨rfl, rfl, rfl, List.Forall₂.cons ⟨rfl, rfl, rfl⟩ (List.Forall₂.cons ⟨rfl, rfl, rfl⟩
    (List.Forall₂.cons ⟨rfl, rfl, rfl⟩ List.Forall₂.nil))⟩, fixOK_of_B rfl, by decide⟩

/-- The network of `taskOps 0` with other tensors. -/
def taskOps2 : List (Op (TVal Nat)) :=
  [.addNode (some (.int 0)) (.int 0) (some [.str "a", .str "b"]) (arrVal [2, 3] fun i => 2 * i.sum) false,
   .addNode (some (.int 1)) (.int 1) (some [.str "b", .str "c"]) (arrVal [3, 2] fun i => i.sum + 5) false,
   .openEdge (.str "a") none, .fixEdge (.str "c") [0] false]

/-- The hypotheses of `c08_set_data_partial` on the data are met; the names `0`, `1` have distinct `str`, so `sortStr`
does not depend on the insertion order. -/
example : ∃ tn tn2 : TN (TVal Nat), TN.run {} (taskOps 0) = some tn ∧ TN.run {} taskOps2 = some tn2 ∧
    SameButTensors tn tn2 ∧ (∀ l, l.Perm tn.nodes.keys → sortStr l = sortStr tn.nodes.keys) ∧
    ∃ data : Dict Nm (Arr Nat), data.keys = [.int 1, .int 0] ∧
      ∀ n r t, tn2.nodes.get? n = some r → r.ten = some t →
        Contracts arrContract TVal.val t ∧ data.get? n = arrContract t := by
  refine ⟨_, _, rfl, rfl, ⟨rfl, rfl, rfl⟩, ?_, [(.int 1, ⟨[3, 2], fun i => i.sum + 5⟩), (.int 0, ⟨[2, 3], fun i => 2 * i.sum⟩)],
    rfl, ?_⟩
  · intro l hl
    have hl : l.Perm [.int 0, .int 1] := hl
    match l, hl with
    | [], hl => exact absurd hl.length_eq (by simp)
    | [_], hl => exact absurd hl.length_eq (by simp)
    | _ :: _ :: _ :: _, hl => exact absurd hl.length_eq (by simp)
    | [x, y], hl =>
      have hx : x ∈ [Nm.int 0, .int 1] := hl.subset (by simp)
      have hy : y ∈ [Nm.int 0, .int 1] := hl.subset (by simp)
      have hn : [x, y].Nodup := hl.nodup_iff.2 (by decide)
      simp only [List.mem_cons, List.not_mem_nil, or_false] at hx hy
      rcases hx with rfl | rfl <;> rcases hy with rfl | rfl
      · simp at hn
      · rfl
      · decide
      · simp at hn
  · intro n r t hn ht
    have hm := Dict.mem_of_get? hn
    have hm : (n, r) ∈ [((Nm.int 0), (⟨[.str "a", .str "b"], some (arrVal [2, 3] fun i => 2 * i.sum), false⟩ : NodeRec (TVal Nat))),
      (.int 1, ⟨[.str "b", .str "c"], some (arrVal [3, 2] fun i => i.sum + 5), false⟩)] := hm
    simp only [List.mem_cons, List.not_mem_nil, or_false, Prod.mk.injEq] at hm
    rcases hm with ⟨rfl, rfl⟩ | ⟨rfl, rfl⟩
    · cases ht; exact ⟨arrContract_ok _, rfl⟩
    · cases ht; exact ⟨arrContract_ok _, rfl⟩

end Verif
