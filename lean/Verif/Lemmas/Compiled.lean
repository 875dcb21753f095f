import Verif.Lemmas.Exec
import Verif.Lemmas.Slice
/-! # Helper lemmas: what a compiled task computes -/

set_option linter.unusedSectionVars false

namespace Verif

variable {R : Type} [CommSemiring R] {L : Type} [AddCommMonoid L] {τ : Type}

theorem cellOf_eq (b : Nat) (l : List (Nm × List Nat × Nat)) (e : Nm) :
    cellOf b l e = if e ∈ l.map Prod.fst then some (b + (l.map Prod.fst).idxOf e) else none := by
  have key : ∀ (l : List (Nm × List Nat × Nat)) (o : Nat),
      Dict.get? ((l.zipIdx o).map fun p => (p.1.1, b + p.2)) e =
        if e ∈ l.map Prod.fst then some (b + (o + (l.map Prod.fst).idxOf e)) else none := by
    intro l
    induction l with
    | nil => intro o; rfl
    | cons p l ih =>
      intro o
      rw [List.zipIdx_cons, List.map_cons, Dict.get?_cons, ih, List.map_cons]
      by_cases h : p.1 = e
      · subst h
        rw [if_pos rfl, if_pos (by simp), List.idxOf_cons_self, Nat.add_zero]
      · rw [if_neg h]
        by_cases hm : e ∈ l.map Prod.fst
        · rw [if_pos hm, if_pos (by simp only [List.mem_cons]; exact Or.inr hm), List.idxOf_cons_ne _ h]
          congr 1; omega
        · rw [if_neg hm, if_neg]
          simp only [List.mem_cons, not_or]
          exact ⟨fun hc => h hc.symm, hm⟩
  unfold cellOf
  rw [key l 0, Nat.zero_add]

/-- The values the fix cells give to the edges. -/
def cellVals (F S : List Nm) (f1 f2 : Nat → Nat) (e : Nm) : Nat :=
  if e ∈ F then f1 (F.idxOf e) else f2 (F.length + S.idxOf e)

/-- A task whose commands compute the contraction of the nodes `nl` with the edges `F` and `S` pinned to the
contents of the fix cells: those of `F` when the data are prepared, those of `S` at every sub-task. -/
structure TaskOK (L : Type) [AddCommMonoid L] (dims : Nm → Nat) (nl : List (Nm × List Nm)) (opn F S : List Nm)
    (T : Task R) : Prop where
  inputs : T.inputs = (nl.map Prod.fst).zipIdx
  openE : T.openE = some opn
  shape : T.shape = opn.map dims
  subOut : T.subOut = opn.filter (· ∉ F ++ S)
  sem : ∃ nx1, ∀ (E E' : Engine L R) (h : Heap L R) (arr : Nm → Arr R), E.nrm = none →
    (∀ l, (E.ord l).Perm l) → (∀ l, (E'.ord l).Perm l) → (∀ p ∈ nl, CellHolds dims T.inputs h p.1 p.2 0 (arr p.1)) →
    (∀ e ∈ F, h.fix (F.idxOf e) < dims e) →
    ∃ h1, runCmds E (T.cmds.take T.cnt) h = some h1 ∧ h1.fix = h.fix ∧
      ∀ h2 : Heap L R, (∀ c, c < nx1 → h2.data c = h1.data c) →
        (∀ e ∈ S, h2.fix (F.length + S.idxOf e) < dims e) →
        ∃ h3 r, runCmds E' (T.cmds.drop T.cnt) h2 = some h3 ∧ h3.fix = h2.fix ∧
          (∀ c, c < nx1 → h3.data c = h2.data c) ∧ h3.data T.output = some (E'.finish 0 r) ∧
          r.shape = T.subOut.map dims ∧
          ∀ idx, r.get idx = einsum (fun e => Finset.range (dims e))
            (nl.map fun p => Factor.pin (F ++ S) (cellVals F S h.fix h2.fix) ⟨p.2, (arr p.1).get⟩) T.subOut idx

theorem runCmds_append {E : Engine L R} {c1 c2 : List Cmd} {h h1 : Heap L R} (h0 : runCmds E c1 h = some h1) :
    runCmds E (c1 ++ c2) h = runCmds E c2 h1 := by
  induction c1 generalizing h with
  | nil => rw [runCmds] at h0; cases h0; rfl
  | cons c c1 ih =>
    rw [runCmds] at h0
    rw [List.cons_append, runCmds]
    cases hc : runCmd E h c with
    | none => rw [hc] at h0; simp at h0
    | some h' => rw [hc] at h0; exact ih h0

theorem choose_fun {α β : Type} [Inhabited β] {P : α → β → Prop} {l : List α} (h : ∀ x ∈ l, ∃ y, P x y) :
    ∃ f : α → β, ∀ x ∈ l, P x (f x) := by
  classical
  exact ⟨fun x => if hx : x ∈ l then (h x hx).choose else default, fun x hx => by
    simp only [dif_pos hx]; exact (h x hx).choose_spec⟩

theorem nodeLegs_fst (tn : TN τ) : tn.nodeLegs.map Prod.fst = tn.nodes.keys := by
  unfold TN.nodeLegs Dict.keys; rw [List.map_map]; rfl

theorem isFixed_iff_mem {tn : TN τ} (hc : tn.Consistent) (hf : FixOK tn) {e : Nm} :
    tn.isFixed e = true ↔ e ∈ (fixedEntries tn.edges).map Prod.fst := by
  rw [TN.isFixed_iff, List.mem_map]
  constructor
  · rintro ⟨r, l, hr, hl⟩
    obtain ⟨v, d, rfl, hd, _⟩ := hf e r l hr hl
    refine ⟨(e, [v], v), mem_fixedEntries.2 ⟨r.dim, v, ?_, rfl⟩, rfl⟩
    have := Dict.mem_of_get? hr
    obtain ⟨d', f'⟩ := r
    dsimp only at hl
    subst hl
    exact this
  · rintro ⟨x, hx, rfl⟩
    obtain ⟨d, v, hm, _⟩ := mem_fixedEntries.1 hx
    exact ⟨_, [v], Dict.get?_of_mem hc.edges_nodup hm, rfl⟩

/-- Two fix phases with disjoint edges pin both sets of edges. -/
theorem pin_two {F S : List Nm} {legs legs1 legs2 : List Nm} {f1 f2 : Nat → Nat}
    {cell1 cell2 : Nm → Option Nat} (hc1 : ∀ e, cell1 e = if e ∈ F then some (F.idxOf e) else none)
    (hc2 : ∀ e, cell2 e = if e ∈ S then some (F.length + S.idxOf e) else none)
    (h1 : legs1 = legs.filter fun e => (cell1 e).isNone) (h2 : legs2 = legs1.filter fun e => (cell2 e).isNone)
    {a a1 a2 : List Nat → R} (ha1 : ∀ b : Nm → Nat, a1 (legs1.map b) = a (legs.map fun e => ((cell1 e).map f1).getD (b e)))
    (ha2 : ∀ b : Nm → Nat, a2 (legs2.map b) = a1 (legs1.map fun e => ((cell2 e).map f2).getD (b e))) :
    legs2 = legs.filter (· ∉ F ++ S) ∧
      ∀ b : Nm → Nat, a2 (legs2.map b) = (Factor.pin (F ++ S) (cellVals F S f1 f2) ⟨legs, a⟩).ten (legs2.map b) := by
  have hl : legs2 = legs.filter (· ∉ F ++ S) := by
    rw [h2, h1, List.filter_filter]
    refine List.filter_congr fun e _ => ?_
    rw [hc1, hc2]
    by_cases h3 : e ∈ F <;> by_cases h4 : e ∈ S <;> simp [h3, h4]
  refine ⟨hl, fun b => ?_⟩
  show _ = a (weave (F ++ S) _ legs (legs2.map b))
  rw [hl, weave_map, ← hl, ha2, ha1]
  refine congrArg a (List.map_congr_left fun e _ => ?_)
  rw [hc1, hc2]
  unfold cellVals
  by_cases h3 : e ∈ F
  · simp [h3]
  · by_cases h4 : e ∈ S <;> simp [h3, h4]

theorem genTemplate_ok (L : Type) [AddCommMonoid L] {tn : TN τ} {split : List Nm} {order : List OrderStep} {last : Nm}
    {dims : Nm → Nat} (hc : tn.Consistent) (hcan : tn.Canonical) (hf : FixOK tn) (hs : SliceOK tn split)
    (hord : order = [] ∨ ValidOrder tn.nodes.keys order last ∧ Pairwise2 order) :
    ∃ (T : Task R), genTemplate tn order split (tn.openE.map dims) =
        .ok (T, initFix (fixedEntries tn.edges ++ sliceEntries split (tn.pruned split).edges)) ∧
      TaskOK L dims tn.nodeLegs tn.openE ((fixedEntries tn.edges).map Prod.fst)
        ((sliceEntries split (tn.pruned split).edges).map Prod.fst) T ∧
      T.fixDict = fixEntries 0 (fixedEntries tn.edges ++ sliceEntries split (tn.pruned split).edges) ∧
      T.length = fixLength T.fixDict ∧ T.cmds ≠ [] := by
  obtain ⟨hp1, hp2, hp3, hp4, hp5⟩ := TN.pruned_spec hc hs hcan.unfixed
  set l1 := fixedEntries tn.edges with hl1
  set l2 := sliceEntries split (tn.pruned split).edges with hl2
  have hslice : ∀ e ∈ split, ∃ d, (tn.pruned split).edges.get? e = some ⟨some d, none⟩ ∧ 0 < d := by
    intro e he
    obtain ⟨d, hd, hpos⟩ := hs.ok e he
    exact ⟨d, hp5 e _ hd rfl (Or.inr (Or.inr he)), hpos⟩
  have hmemS : ∀ e, e ∈ l2.map Prod.fst ↔ e ∈ split := by
    intro e
    rw [List.mem_map]
    constructor
    · rintro ⟨x, hx, rfl⟩
      exact (mem_sliceEntries.1 hx).choose_spec.2.1
    · intro he
      obtain ⟨d, hd, _⟩ := hslice e he
      exact ⟨(e, List.range d, 0), mem_sliceEntries.2 ⟨_, Dict.mem_of_get? hd, he, rfl⟩, rfl⟩
  have hFS : ∀ e ∈ l2.map Prod.fst, e ∉ l1.map Prod.fst := by
    intro e he hF
    obtain ⟨r, l, hr, hl⟩ := TN.isFixed_iff.1 ((isFixed_iff_mem hc hf).2 hF)
    obtain ⟨d, hd, _⟩ := hs.ok e ((hmemS e).1 he)
    rw [hd] at hr; cases hr; simp at hl
  obtain ⟨tnf, hcl, hlf, hof, hcf, huf⟩ := TN.closeSlices_spec hp3 (fun p hp => (hp4 p hp).2) hslice
  have hlegs := hp1.trans hlf
  have hopen : tnf.openE = tn.openE.filter (· ∉ l1.map Prod.fst ++ l2.map Prod.fst) := by
    rw [hof, hp2, List.filter_append]
    have : split.filter (· ∉ split) = [] := List.filter_eq_nil_iff.2 fun e he => by simpa using he
    rw [this, List.append_nil]
    refine List.filter_congr fun e he => ?_
    have hnf : e ∉ l1.map Prod.fst := by
      intro hF
      obtain ⟨r, l, hr, hl⟩ := TN.isFixed_iff.1 ((isFixed_iff_mem hc hf).2 hF)
      rw [hcan.unfixed e he r hr] at hl; simp at hl
    simp only [List.mem_append, hnf, hmemS, false_or]
  have hcanf : tnf.Canonical := by
    refine ⟨?_, ?_, ?_, ?_⟩
    · rw [hopen]; exact hcan.nodup.filter _
    · intro e he
      rw [hopen, List.mem_filter] at he
      obtain ⟨n, r, hr, hl⟩ := hcan.attached e he.1
      obtain ⟨r', hr', hl', _⟩ := hlegs.exists hc.nodes_nodup hr
      refine ⟨n, r', hr', ?_⟩
      rw [hl', List.mem_filter]
      refine ⟨hl, ?_⟩
      have h2 := he.2
      simp only [List.mem_append, decide_eq_true_eq, not_or] at h2
      have hnf : tn.isFixed e = false := by
        rw [Bool.eq_false_iff, ne_eq, isFixed_iff_mem hc hf]; exact h2.1
      rw [hnf]
      simp only [Bool.not_false, Bool.true_and, decide_eq_true_eq]
      rw [← hmemS]; exact h2.2
    · intro e _ r hr
      have := huf e
      unfold TN.isFixed at this
      rw [hr] at this
      simpa using this
    · intro h0
      apply hcan.nonempty
      have := hlegs.keys
      rw [h0] at this
      exact List.map_eq_nil_iff.1 this.symm
  have hcanB : tnf.canonicalB = true := by
    unfold TN.canonicalB
    rw [Bool.and_eq_true, Bool.and_eq_true, decide_eq_true_eq, List.all_eq_true]
    refine ⟨⟨hcanf.nodup, ?_⟩, fun e he => ?_⟩
    · have := hcanf.nonempty
      cases hn : tnf.nodes with
      | nil => exact absurd hn this
      | cons _ _ => rfl
    · rw [Bool.and_eq_true, Bool.not_eq_true', TN.adjOfEdge_isEmpty hcf]
      refine ⟨hcanf.attached e he, ?_⟩
      obtain ⟨r, hr⟩ := Dict.exists_get? (hcf.open_exist e he)
      rw [hr]
      simp [hcanf.unfixed e he r hr]
  -- the two phases of fix commands
  have hinl : ∀ n c, Dict.get? tn.nodes.keys.zipIdx n = some c → c < tn.nodes.length := by
    intro n c h
    have := (List.getElem?_eq_some_iff.1 (inputs_get? h)).1
    simpa [Dict.keys] using this
  obtain ⟨cmds1, ref1, nx1, hg1, hle1, hlt1, _, hk1, hrun1⟩ := genFix_ok (L := L) (R := R) dims (cellOf 0 l1)
    (ns := tn.nodeLegs) (by rw [nodeLegs_fst]; exact hc.nodes_nodup) (ref := tn.nodes.keys.zipIdx)
    (nx := tn.nodes.length) hinl (fun p hp => by
      rw [inputs_keys, ← nodeLegs_fst]; exact List.mem_map_of_mem hp)
  have hnl2 : (tn.pruned split).nodeLegs = tn.nodeLegs.map fun p => (p.1, p.2.filter fun e => (cellOf 0 l1 e).isNone) := by
    rw [hp1.nodeLegs]
    unfold TN.nodeLegs
    rw [List.map_map]
    refine List.map_congr_left fun p _ => ?_
    simp only [Function.comp, Prod.mk.injEq, true_and]
    refine List.filter_congr fun e _ => ?_
    rw [cellOf_eq]
    by_cases hF : e ∈ l1.map Prod.fst
    · rw [if_pos hF, (isFixed_iff_mem hc hf).2 hF]; rfl
    · rw [if_neg hF]
      have hnf : tn.isFixed e = false := by
        rw [Bool.eq_false_iff, ne_eq, isFixed_iff_mem hc hf]; exact hF
      rw [hnf]; rfl
  obtain ⟨cmds2, ref2, nx2, hg2, hle2, hlt2, _, hk2, hrun2⟩ := genFix_ok (L := L) (R := R) dims
    (cellOf l1.length l2) (ns := (tn.pruned split).nodeLegs) (by
      rw [nodeLegs_fst, hp1.keys]; exact hc.nodes_nodup) (ref := ref1)
    (nx := nx1) hlt1 (fun p hp => by
      rw [hk1, inputs_keys, ← hp1.keys, ← nodeLegs_fst]; exact List.mem_map_of_mem hp)
  have hnl3 : tnf.nodeLegs = (tn.pruned split).nodeLegs.map fun p =>
      (p.1, p.2.filter fun e => (cellOf l1.length l2 e).isNone) := by
    rw [hlf.nodeLegs]
    unfold TN.nodeLegs
    rw [List.map_map]
    refine List.map_congr_left fun p _ => ?_
    simp only [Function.comp, Prod.mk.injEq, true_and]
    refine List.filter_congr fun e _ => ?_
    rw [cellOf_eq]
    by_cases hS : e ∈ split
    · rw [if_pos ((hmemS e).2 hS)]; simp [hS]
    · rw [if_neg fun h => hS ((hmemS e).1 h)]; simp [hS]
  obtain ⟨cmd, hcmd, hcrun⟩ := finalCmd_ok (L := L) (R := R) (dims := dims) (nx := nx2) hcf hcanf huf
    (hord.imp id fun h => ⟨by rw [hlegs.keys]; exact h.1, h.2⟩) (ref := ref2) (fun n hn => by
      rw [hk2, hk1, inputs_keys, ← hlegs.keys]; exact hn)
  have hnd : (Dict.keys (fixEntries 0 l1 ++ fixEntries l1.length l2)).Nodup := by
    rw [← fixEntries_append]
    have : ((fixEntries 0 (l1 ++ l2)).map fun p => p.1.1).Nodup := by
      rw [fixEntries_edges, List.map_append]
      exact List.Nodup.append (fixedEntries_nodup hc.edges_nodup) (sliceEntries_nodup hp3.edges_nodup)
        fun e h1 h2 => hFS e h2 h1
    rw [show (fun p : (Nm × List Nat) × Nat => p.1.1) = Prod.fst ∘ Prod.fst from rfl, ← List.map_map] at this
    exact this.of_map
  have hfd : (fixEntries l1.length l2).foldl (fun d p => d.set p.1 p.2) (fixEntries 0 l1) = fixEntries 0 (l1 ++ l2) := by
    rw [Dict.foldl_set hnd, fixEntries_append]
  refine ⟨{ cmds := cmds1 ++ cmds2 ++ [cmd], fixDict := fixEntries 0 (l1 ++ l2), inputs := tn.nodes.keys.zipIdx,
            output := nx2, shape := tn.openE.map dims, openE := some tn.openE, subOut := tnf.openE, cnt := cmds1.length,
            length := fixLength (fixEntries 0 (l1 ++ l2)),
            pre := if cmds1.length > 0 then some false else none }, ?_, ?_, rfl, rfl, by simp⟩
  · unfold genTemplate
    dsimp only
    rw [edgeFix_fixed (fun p hp l hl => by
      obtain ⟨v, _, rfl, _⟩ := hf p.1 p.2 l (Dict.get?_of_mem hc.edges_nodup hp) hl; exact ⟨v, rfl⟩)]
    dsimp only
    rw [← hl1, hg1]
    dsimp only
    rw [show (TN.fixAll { tn with openE := tn.openE ++ split }).dropDangling = tn.pruned split from rfl,
      edgeFix_slices (fun p hp => (hp4 p hp).2) (fun p hp hsp => by
        obtain ⟨d, hd, _⟩ := hslice p.1 hsp
        rw [Dict.get?_of_mem hp3.edges_nodup hp] at hd
        rw [Option.some.injEq] at hd
        rw [hd]; simp)]
    dsimp only
    rw [← hl2, hg2]
    dsimp only
    rw [hcl]
    dsimp only
    rw [if_pos hcanB, hcmd]
    dsimp only
    rw [hfd]
  · refine ⟨by rw [nodeLegs_fst], rfl, rfl, hopen, nx1, ?_⟩
    intro E E' h arr _ _ hordE hcell hfixr
    have hcell1 : ∀ e, cellOf 0 l1 e = if e ∈ l1.map Prod.fst then some ((l1.map Prod.fst).idxOf e) else none := by
      intro e; rw [cellOf_eq, Nat.zero_add]
    have hcell2 : ∀ e, cellOf l1.length l2 e =
        if e ∈ l2.map Prod.fst then some ((l1.map Prod.fst).length + (l2.map Prod.fst).idxOf e) else none := by
      intro e; rw [cellOf_eq, List.length_map]
    obtain ⟨h1, hr1, hf1, _, hnew1⟩ := hrun1 E h (fun n => (0, arr n)) hcell (fun p _ e _ c hce => by
      rw [hcell1] at hce
      split at hce
      · next hF => cases hce; exact hfixr e hF
      · simp at hce)
    have : Inhabited (Arr R) := ⟨zeroArr []⟩
    obtain ⟨arr1, harr1⟩ := choose_fun hnew1
    refine ⟨h1, by
      show runCmds E ((cmds1 ++ cmds2 ++ [cmd]).take cmds1.length) h = _
      rw [List.append_assoc, List.take_left']
      · exact hr1
      · rfl, hf1, ?_⟩
    intro h2 hd2 hfix2
    have hget1 : ∀ q ∈ tn.nodes, (tn.nodes.get? q.1).map NodeRec.legs = some q.2.legs := fun q hq => by
      rw [Dict.get?_of_mem hc.nodes_nodup hq]; rfl
    let A1 : Nm → Arr R := fun n => arr1 (n, ((tn.nodes.get? n).map NodeRec.legs).getD [])
    have hA1 : ∀ p ∈ tn.nodeLegs, A1 p.1 = arr1 p := by
      intro p hp
      obtain ⟨q, hq, rfl⟩ := List.mem_map.1 hp
      show arr1 (q.1, _) = _
      rw [hget1 q hq]; rfl
    obtain ⟨h2', hr2, hf2, hold2, hnew2⟩ := hrun2 E' h2 (fun n => (0, A1 n)) (fun p hp => by
        rw [hnl2] at hp
        obtain ⟨q, hq, rfl⟩ := List.mem_map.1 hp
        obtain ⟨c, k1, k2, k3⟩ := (harr1 q hq).1
        refine ⟨c, k1, ?_, ?_⟩
        · rw [hd2 c (hlt1 _ _ k1), k2, hA1 q hq]
        · dsimp only; rw [hA1 q hq]; exact k3) (fun p _ e _ c hce => by
      rw [hcell2] at hce
      split at hce
      · next hS => cases hce; exact hfix2 e hS
      · simp at hce)
    obtain ⟨arr2, harr2⟩ := choose_fun hnew2
    let A2 : Nm → Arr R := fun n => arr2 (n, (((tn.pruned split).nodes.get? n).map NodeRec.legs).getD [])
    have hA2 : ∀ p ∈ (tn.pruned split).nodeLegs, A2 p.1 = arr2 p := by
      intro p hp
      obtain ⟨q, hq, rfl⟩ := List.mem_map.1 hp
      show arr2 (q.1, _) = _
      rw [Dict.get?_of_mem hp3.nodes_nodup hq]; rfl
    obtain ⟨r, hrc, hrs, hrg⟩ := hcrun E' h2' A2 hordE (fun p hp => by
      rw [hnl3] at hp
      obtain ⟨q, hq, rfl⟩ := List.mem_map.1 hp
      obtain ⟨c, k1, k2, k3⟩ := (harr2 q hq).1
      exact ⟨c, k1, by dsimp only; rw [hA2 q hq]; exact k2, by dsimp only; rw [hA2 q hq]; exact k3⟩)
    refine ⟨h2'.put nx2 (E'.finish 0 r), r, ?_, hf2, ?_, ?_, hrs, ?_⟩
    · show runCmds E' ((cmds1 ++ cmds2 ++ [cmd]).drop cmds1.length) h2 = _
      rw [List.append_assoc, List.drop_left' rfl, runCmds_append hr2, runCmds, hrc]
      rfl
    · intro c hcn
      show (if c = nx2 then _ else _) = _
      rw [if_neg (by omega)]
      exact hold2 c hcn
    · show (if nx2 = nx2 then _ else _) = _
      rw [if_pos rfl]
    · intro idx
      rw [hrg]
      dsimp only
      refine einsum_factors_congr ?_
      rw [hnl3, hnl2, List.map_map, List.map_map, List.forall₂_map_left_iff, List.forall₂_map_right_iff,
        List.forall₂_same]
      intro p hp
      simp only [Function.comp]
      have hp2' : (p.1, p.2.filter fun e => (cellOf 0 l1 e).isNone) ∈ (tn.pruned split).nodeLegs := by
        rw [hnl2]; exact List.mem_map.2 ⟨p, hp, rfl⟩
      have h3 := (harr1 p hp).2
      have h4 := (harr2 _ hp2').2
      obtain ⟨k1, k2⟩ := pin_two (legs := p.2) hcell1 hcell2 rfl rfl (a := (arr p.1).get) (a1 := (arr1 p).get)
        (a2 := (A2 p.1).get) (f1 := h.fix) (f2 := h2.fix) h3 (fun b => by
          have h5 := h4 b
          dsimp only at h5
          rw [hA1 p hp] at h5
          have h6 : A2 p.1 = arr2 (p.1, p.2.filter fun e => (cellOf 0 l1 e).isNone) := hA2 _ hp2'
          rw [← h5, h6])
      exact ⟨k1, fun a _ => k2 a⟩

end Verif
